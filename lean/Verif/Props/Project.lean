import Verif.Proofs.Project
import Verif.Proofs.RuleDemo
/-
C62: makefiles that include others.
-/
namespace Hastur

open Res Span

/-- The full claim: after reading a makefile, its variables and rules and those of all files it includes, directly or
through other files, are those of the specification; the last rules of all files are complete. -/
def C62_full : Prop :=
  ∀ (fs : Fs) (text name : Str) (body : List LChar) (st : St) (M : MakeState → Prop), AsciiS text →
    Headed (locate (.source 1 1 (st.names.internFile name).1) text) body → isAscii st.commandChar = true →
    st.WF → RulesKnown st.db st.names →
    Means fs st.commandChar (fun _ _ => True) (fun _ => True) ⟨st.vars, st.ruleTable, [], none⟩ body M →
    ∃ m st', M m ∧ FileGives fs name text st st' ∧ st'.vars = m.vars ∧ st'.ruleTable = m.close.rules

/-- C62 for projects in which no file ends inside a rule, and every `endif` closes a conditional in its taken branch or
inside a branch that is not taken. -/
theorem C62_project_partial (fs : Fs) {text name : Str} {st : St} {M : MakeState → Prop} (ht : AsciiS text)
    {body : List LChar} (hc : Headed (locate (.source 1 1 (st.names.internFile name).1) text) body)
    (hch : isAscii st.commandChar = true) (hw : st.WF) (hk : RulesKnown st.db st.names)
    (hm : Means fs st.commandChar NoSwitch NoOpenRule ⟨st.vars, st.ruleTable, [], none⟩ body M) (hM : ∀ m, M m → NoOpenRule m) :
    ∃ m st', M m ∧ FileGives fs name text st st' ∧ st'.vars = m.vars ∧ st'.ruleTable = m.close.rules := by
  obtain ⟨m, p', st', h1, h2, h3, _⟩ := file_means fs ht hc hch hw hk hm
  exact ⟨m, st', h1, h2, h3.vars, by rw [h3.rules, MakeState.close_none (hM m h1)]⟩

/-- C62, exactly: what projects do in all cases, whether or not files end inside rules and whatever is closed where.  The
variables and rules afterwards are those of `Does`, which differs from the specification `Means` in four points: `endif`
does not turn processing on again (C42), commands in a branch not taken are added to the open rule (C43), the rule that is
open at the end of a file or of an evaluated text is lost (C44), and the rule that is open before a line that calls `eval`
is completed after the evaluated text.  Comments need not be at the top of a file (`DoesFile`); what precedes the first of
them counts as one line (C69). -/
theorem C62_exact (fs : Fs) {text name : Str} {st : St} {M : Bool → MakeState → Prop} (ht : AsciiS text)
    (hch : isAscii st.commandChar = true) (hw : st.WF) (hk : RulesKnown st.db st.names)
    (hm : DoesFile fs st.commandChar ⟨st.vars, st.ruleTable, [], none⟩
      (locate (.source 1 1 (st.names.internFile name).1) text) M) :
    ∃ on m st', M on m ∧ FileGives fs name text st st' ∧ st'.vars = m.vars ∧ st'.ruleTable = m.rules ∧
      st'.commandChar = st.commandChar := by
  obtain ⟨on, m, p', st', h1, h2, h3, h4⟩ := file_does fs ht hch hw hk hm
  exact ⟨on, m, st', h1, h2, h3.vars, h3.rules, h4⟩

/-- Where no `endif` would have to turn processing on again and no file ends inside a rule, this is what projects mean. -/
theorem C62_agrees {fs : Fs} {c : Char} {m : MakeState} {t : List LChar} {M : MakeState → Prop}
    (h : Means fs c NoSwitch NoOpenRule m t M) (hb : AllTaken m.branches) : Does fs c true m t (fun _ m' => M m') := by
  exact (means_does h true ⟨fun _ => hb, fun _ => rfl⟩).weaken fun _ _ h => h.2

/-! ### Examples -/

private theorem init_known : RulesKnown St.init.db St.init.names :=
  ⟨⟨List.nodup_nil, List.nodup_nil⟩, fun f r h => by cases h⟩

private abbrev at_ (h : FileName) (line col : Nat) : Location := .source line col h

/-- A file that begins with the rule `a: b`. -/
private theorem rule_line {ok : List Branch → Branch → Prop} (h : FileName) {rest : Str} {m : MakeState}
    (hb : AllTaken m.branches) (hc : m.current = none) :
    LineMeans '\t' ok m (locate (at_ h 1 1) ("a: b".toList ++ '\n' :: rest)) (locate (at_ h 2 1) rest)
      { m.close with current := some ⟨[[('a', at_ h 1 1)]], [[('b', at_ h 1 4)]], [], .standard⟩ } := by
  have wa : ∀ x ∈ [('a', at_ h 1 1)], WordChar x.1 := by
    intro x hx; cases List.mem_singleton.mp hx; show WordChar 'a'; unfold WordChar; decide
  have wb : ∀ x ∈ [('b', at_ h 1 4)], WordChar x.1 := by
    intro x hx; cases List.mem_singleton.mp hx; show WordChar 'b'; unfold WordChar; decide
  have hd : WordList0 [(' ', at_ h 1 3), ('b', at_ h 1 4)] [[('b', at_ h 1 4)]] :=
    .some (gap := [(' ', at_ h 1 3)]) (by unfold Blanks; simp) (wordList_one (by simp) wb)
  obtain ⟨tt, h1, h2⟩ := targets_words m.vars.env (wordList_one (w := [('a', at_ h 1 1)]) (by simp) wa)
  have key := LineMeans.rule (c := '\t') (ok := ok) (m := m)
    (t := locate (at_ h 1 1) ("a: b".toList ++ '\n' :: rest)) (line := locate (at_ h 1 1) "a: b".toList)
    (rest := locate (at_ h 2 1) rest) (ts := [('a', at_ h 1 1)])
    (ds := [(' ', at_ h 1 3), ('b', at_ h 1 4)]) (after := [(' ', at_ h 1 3), ('b', at_ h 1 4)]) (double := false) (command := none)
    hb (.inl hc) (physical_locate (by decide) (by simp) (by decide)) (by rw [textOf_locate]; decide)
    (not_condLike (by simp) (by unfold condWords; decide))
    (not_varLike (by rw [textOf_locate]; decide) (by rw [textOf_locate]; unfold varWords; decide))
    (by rintro ⟨w, hw, hp⟩; rw [textOf_locate] at hp; revert w; unfold directiveWords; decide)
    (.plain (ts := [('a', at_ h 1 1)]) (ds := [(' ', at_ h 1 3), ('b', at_ h 1 4)]) (cs := [(':', at_ h 1 2)]) rfl (by simp))
    (not_varLike (by show '=' ∉ ['b']; decide) (by show ∀ w ∈ varWords, ¬ w <+: ['b'].map lower; unfold varWords; decide)) h1
    (reads_names hd.names) (Expands.text _ _) (fileNames_of hd.names) .none
  rw [h2, wordsOf_list0 hd] at key
  exact key

/-- A line `x=1`. -/
private theorem assign_line {ok : List Branch → Branch → Prop} (h : FileName) (n : Nat) {rest : Str} {m : MakeState}
    (hb : AllTaken m.branches) :
    LineMeans '\t' ok m (locate (at_ h n 1) ("x=1".toList ++ '\n' :: rest)) (locate (at_ h (n + 1) 1) rest)
      { m.close with vars := m.vars.set ['x'] .recursive (Expr.text [('1', at_ h n 3)]) } :=
  .assign hb (.inr (by rw [textOf_locate]; simp))
      (logical_locate (line := "x=1".toList) (rest := rest) (by decide) (by simp) (by decide))
      (assignText_locate (name := ['x']) (gap := []) (op := ['=']) (gap' := []) (value := ['1'])
        (by unfold NameChar; decide) (by simp) .recursive (by simp) (by simp))
      (not_condLike_locate (by simp) (by unfold condWords; decide)) (reads_text (free_locate (by decide)))
      (reads_text (free_locate (by decide))) (by simp) (.recursive (denotes_locate (by decide)) .nil)

/-- A file that begins with `-include g f`. -/
private theorem include_line {fs : Fs} {ok : List Branch → Branch → Prop} {ends : MakeState → Prop} (h : FileName)
    {rest : Str} {m : MakeState} {M1 M : MakeState → Prop} (hb : AllTaken m.branches)
    (hr : Reading fs '\t' ok ends true [['g'], ['f']] m.close M1)
    (hn : ∀ m1, M1 m1 → Means fs '\t' ok ends m1 (locate (at_ h 2 1) rest) M) :
    Means fs '\t' ok ends m (locate (at_ h 1 1) ("-include g f".toList ++ '\n' :: rest)) M := by
  have hi : IncludeText (locate (at_ h 1 1) "-include g f".toList) true (locate ((at_ h 1 1).after "-include".toList) " g f".toList) := by
    rw [show "-include g f".toList = "-include".toList ++ " g f".toList from rfl, locate_append]
    exact .soft (by rw [textOf_locate]; decide)
  refine .include_ hb (.inr (by rw [textOf_locate]; simp)) (logical_locate (by decide) (by simp) (by decide)) hi
    (not_varLike (by rw [textOf_locate]; decide) (by rw [textOf_locate]; unfold varWords; decide))
    (reads_text (free_locate (by decide))) (Expands.text _ _) ⟨free_locate (by decide), free_locate (by decide)⟩ hr hn

private def ruleOnly : Fs := fun f => if f = ['f'] then .text "a: b\n".toList else .missing

/-- `-include g f`, where `f` contains only the rule `a: b`: the rule is lost. -/
theorem C62_refuted : ¬ C62_full := by
  intro hfull
  have hm : Means ruleOnly '\t' (fun _ _ => True) (fun _ => True) ⟨St.init.vars, St.init.ruleTable, [], none⟩
      (locate (at_ ⟨0⟩ 1 1) ("-include g f".toList ++ '\n' :: [])) (fun m => m.close.rules ['a'] ≠ none) := by
    refine include_line ⟨0⟩ (by intro b hb; cases hb) (.skip rfl (.file (M1 := fun h m1 => m1 =
      { (⟨St.init.vars, St.init.ruleTable, [], none⟩ : MakeState).close with
        current := some ⟨[[('a', at_ h 1 1)]], [[('b', at_ h 1 4)]], [], .standard⟩ })
      (M := fun m => m.close.rules ['a'] ≠ none) rfl
      (by unfold AsciiS; decide) (fun h => .none (free_locate (by decide))) (fun h => .line (rule_line h (rest := []) (by intro b hb; cases hb) rfl) (.nil rfl))
      (fun h m1 e => by subst e; exact ⟨rfl, trivial⟩)
      (fun h m1 e => by subst e; exact .done (by simp [MakeState.close, Rules.file, textOf])))) (fun m1 h1 => .nil h1)
  obtain ⟨m, st', h1, ⟨N, h2⟩, _, h4⟩ := hfull ruleOnly "-include g f\n".toList "Makefile".toList _ St.init _
    (by unfold AsciiS; decide) (.none (free_locate (by decide))) rfl St.init_wf init_known hm
  have hx : (match readF ruleOnly 8 (.text "-include g f\n".toList) "Makefile".toList St.init with
    | .ok (.ok (), st) => decide (((st.names.fileName ['a']).bind st.db.getRule).isNone)
    | _ => false) = true := by decide +kernel
  split at hx
  · rename_i st e
    have e' := (readMakefile_le (recF_le ruleOnly (Nat.le_add_left 8 N)) _ _ _).ok e
    have h2' : readMakefile (recF ruleOnly (N + 8)) _ _ _ = _ := h2 (N + 8) (Nat.le_add_right _ _)
    rw [h2'] at e'
    cases e'
    have hn := of_decide_eq_true hx
    rw [← h4] at h1
    refine h1 ?_
    unfold St.ruleTable
    rw [Option.isNone_iff_eq_none.mp hn]
    rfl
  · cases hx

private def ruleAndVariable : Fs := fun f => if f = ['f'] then .text "a: b\nx=1\n".toList else .missing

/-- `-include g f`, where `g` does not exist and `f` contains the rule `a: b` and the assignment `x=1`: afterwards both are
there, located in `f`. -/
example : ∃ h st', FileGives ruleAndVariable "Makefile".toList "-include g f\n".toList St.init st' ∧
    st'.vars ['x'] = some (.recursive, Expr.text [('1', at_ h 2 3)]) ∧
    st'.ruleTable ['a'] = some ⟨[[('b', at_ h 1 4)]], [], .standard⟩ := by
  have hm : Means ruleAndVariable '\t' NoSwitch NoOpenRule ⟨St.init.vars, St.init.ruleTable, [], none⟩
      (locate (at_ ⟨0⟩ 1 1) ("-include g f".toList ++ '\n' :: [])) (fun m => m.current = none ∧
        ∃ h, m.vars ['x'] = some (.recursive, Expr.text [('1', at_ h 2 3)]) ∧
        m.rules ['a'] = some ⟨[[('b', at_ h 1 4)]], [], .standard⟩) := by
    refine include_line ⟨0⟩ (by intro b hb; cases hb) (.skip rfl (.file (M1 := fun h m1 => m1.branches = [] ∧ m1.current = none ∧
        m1.vars ['x'] = some (.recursive, Expr.text [('1', at_ h 2 3)]) ∧
        m1.rules ['a'] = some ⟨[[('b', at_ h 1 4)]], [], .standard⟩)
      (M := fun m => m.current = none ∧ ∃ h, m.vars ['x'] = some (.recursive, Expr.text [('1', at_ h 2 3)]) ∧
        m.rules ['a'] = some ⟨[[('b', at_ h 1 4)]], [], .standard⟩) rfl
      (by unfold AsciiS; decide) (fun h => .none (free_locate (by decide))) (fun h => .line (rule_line h (rest := "x=1\n".toList) (by intro b hb; cases hb) rfl)
        (.line (assign_line h 2 (rest := []) (by intro b hb; cases hb)) (.nil ⟨rfl, rfl, rfl, rfl⟩)))
      (fun h m1 e => ⟨e.1, e.2.1⟩)
      (fun h m1 e => .done ⟨rfl, h, by rw [MakeState.close_none e.2.1]; exact e.2.2.1,
        by rw [MakeState.close_none e.2.1]; exact e.2.2.2⟩))) (fun m1 h1 => .nil h1)
  obtain ⟨m, st', ⟨h0, h, h1, h2⟩, h3, h4, h5⟩ := C62_project_partial ruleAndVariable (text := "-include g f\n".toList)
    (name := "Makefile".toList) (st := St.init)
    (by unfold AsciiS; decide) (.none (free_locate (by decide))) rfl St.init_wf init_known hm (fun m h => h.1)
  exact ⟨h, st', h3, by rw [h4, h1], by rw [h5, MakeState.close_none h0, h2]⟩

/-- A line `$(eval y=2)` at the beginning of a file. -/
private theorem eval_line {fs : Fs} {ok : List Branch → Branch → Prop} {ends : MakeState → Prop} (h : FileName) {rest : Str}
    {v : Vars} {r : Rules} {M : MakeState → Prop} (he : ∀ v r, ends ⟨v, r, [], none⟩)
    (hn : Means fs '\t' ok ends ⟨v.set ['y'] .recursive (Expr.text [('2', at_ h 1 10)]), r, [], none⟩ (locate (at_ h 2 1) rest) M) :
    Means fs '\t' ok ends ⟨v, r, [], none⟩ (locate (at_ h 1 1) ("$(eval y=2)".toList ++ '\n' :: rest)) M := by
  have hl : EvalLine (locate (at_ h 1 1) "$(eval y=2)".toList) (locate (at_ h 1 8) "y=2".toList) :=
    .mk (l := at_ h 1 1) (l' := at_ h 1 2) (l'' := at_ h 1 11) (kw := locate (at_ h 1 3) "eval".toList)
      (gap := locate (at_ h 1 7) " ".toList) (arg := locate (at_ h 1 8) "y=2".toList) rfl
      (mem_locate (q := fun c => c = ' ' ∨ c = '\t') (by decide)) (by simp [locate])
      (head_locate (q := fun c => ¬ (c = ' ' ∨ c = '\t')) (by decide))
      (.char (show 'y' ≠ '(' by decide) (show 'y' ≠ ')' by decide) (.char (show '=' ≠ '(' by decide)
        (show '=' ≠ ')' by decide) (.char (show '2' ≠ '(' by decide) (show '2' ≠ ')' by decide) .nil)))
      (mem_locate (q := fun c => c ∉ [';', '#', '\\']) (by decide))
  have hlog : Logical (locate (at_ h 1 8) "y=2".toList) (locate (at_ h 1 8) "y=2".toList) [] :=
    .mk [] [] (locate (at_ h 1 8) "y=2".toList) [] [] (by simp) (by intro x hx; cases hx) (free_locate (by decide))
      (head_locate (q := fun c => ¬ (c = ' ' ∨ c = '\t')) (by simp)) (by rw [textOf_locate]; decide) (.inl ⟨rfl, rfl⟩)
  have ha : LineMeans '\t' ok ⟨v, r, [], none⟩ (locate (at_ h 1 8) "y=2".toList) []
      ⟨v.set ['y'] .recursive (Expr.text [('2', at_ h 1 10)]), r, [], none⟩ :=
    .assign (by intro b hb; cases hb) (.inl rfl) hlog
      (assignText_locate (name := ['y']) (gap := []) (op := ['=']) (gap' := []) (value := ['2'])
        (by unfold NameChar; decide) (by simp) .recursive (by simp) (by simp))
      (not_condLike_locate (by simp) (by unfold condWords; decide)) (reads_text (free_locate (by decide)))
      (reads_text (free_locate (by decide))) (by simp) (.recursive (denotes_locate (by decide)) .nil)
  refine .eval (M1 := fun m => m = ⟨v.set ['y'] .recursive (Expr.text [('2', at_ h 1 10)]), r, [], none⟩)
    (by intro b hb; cases hb) (.inl rfl) (by decide) (he _ _) (physical_locate (by decide) (by simp) (by decide)) hl
    (hl.not_varLike (by rw [textOf_locate]; decide)) (free_locate (by decide)) (.line ha (.nil rfl)) ?_ ?_
  · rintro _ rfl
    exact ⟨rfl, he _ _⟩
  · rintro _ rfl
    exact hn

private theorem not_condLike_text {line : List LChar} (h : ∀ w ∈ condWords, ¬ w <+: (textOf line).map lower) : ¬ CondLike line := by
  intro hc
  cases hc with
  | @word w hw hp =>
    refine h w ?_ hp
    simp only [condWords, List.mem_cons, List.not_mem_nil, or_false] at hw ⊢
    rcases hw with h | h | h | h <;> simp [h]
  | @eq a b e hw =>
    refine h ((textOf a).map lower) ?_ ⟨(textOf b).map lower, ?_⟩
    · simp only [condWords, List.mem_cons, List.not_mem_nil, or_false] at hw ⊢
      rcases hw with h | h <;> simp [h]
    · rw [← List.map_append, ← textOf_append, ← e]

/-- The lines `a: b \⏎ c` as the second and third line of a file. -/
private theorem continued_line {ok : List Branch → Branch → Prop} (h : FileName) {rest : Str} {v : Vars} {r : Rules} :
    LineMeans '\t' ok ⟨v, r, [], none⟩ (locate (at_ h 2 1) ("a: b \\\n c\n".toList ++ rest)) (locate (at_ h 4 1) rest)
      ⟨v, r, [], some ⟨[[('a', at_ h 2 1)]], [[('b', at_ h 2 4)], [('c', at_ h 3 2)]], [], .standard⟩⟩ := by
  have hk : Continued.OK ⟨[], locate (at_ h 2 1) "a: b".toList, locate (at_ h 2 5) [' '], at_ h 2 6, at_ h 2 7⟩ :=
    ⟨(by intro x hx; cases hx), by unfold Blanks; simp [locate], free_locate (by decide),
      .inr ⟨⟨('a', at_ h 2 1), _, rfl, by simp⟩, ⟨('b', at_ h 2 4), locate (at_ h 2 1) "a: ".toList, rfl, by simp⟩⟩⟩
  have hl : Logical (Continued.line ⟨[], locate (at_ h 2 1) "a: b".toList, locate (at_ h 2 5) [' '], at_ h 2 6, at_ h 2 7⟩ ++
      locate (at_ h 3 1) (" c\n".toList ++ rest)) (locate (at_ h 2 1) "a: b".toList ++ (' ', .synthetic) :: locate (at_ h 3 2) ['c'])
      (locate (at_ h 4 1) rest) :=
    .mk [⟨[], locate (at_ h 2 1) "a: b".toList, locate (at_ h 2 5) [' '], at_ h 2 6, at_ h 2 7⟩] (locate (at_ h 3 1) [' ']) (locate (at_ h 3 2) ['c']) (locate (at_ h 3 3) ('\n' :: rest)) (locate (at_ h 4 1) rest)
      (by intro k hk'; cases List.mem_singleton.mp hk'; exact hk)
      (by unfold Blanks; simp [locate]) (free_locate (by decide)) (head_locate (q := fun c => ¬ (c = ' ' ∨ c = '\t')) (by simp))
      (by rw [textOf_locate]; decide) (.inr ⟨_, rfl⟩)
  have wb : ∀ l : Location, WordList [('b', l), (' ', .synthetic), ('c', at_ h 3 2)] [[('b', l)], [('c', at_ h 3 2)]] := fun l =>
    .more (w := [('b', l)]) (gap := [(' ', .synthetic)]) (by simp) (by unfold WordChar; simp; decide) (by unfold Blanks; simp) (by simp)
      (wordList_one (by simp) (by unfold WordChar; simp; decide))
  have e : textOf (locate (at_ h 2 1) "a: b".toList ++ (' ', .synthetic) :: locate (at_ h 3 2) ['c']) = "a: b c".toList := rfl
  have e' : textOf (((' ', at_ h 2 3) :: (('b', at_ h 2 4) :: [(' ', .synthetic), ('c', at_ h 3 2)])).dropWhile lblank) = "b c".toList := rfl
  have hc : ¬ CondLike (locate (at_ h 2 1) "a: b".toList ++ (' ', .synthetic) :: locate (at_ h 3 2) ['c']) := by
    refine not_condLike_text ?_
    rw [e]
    unfold condWords
    decide
  have hv : ¬ VarLike (((' ', at_ h 2 3) :: (('b', at_ h 2 4) :: [(' ', .synthetic), ('c', at_ h 3 2)])).dropWhile lblank) :=
    not_varLike (by rw [e']; decide) (by rw [e']; unfold varWords; decide)
  exact .continuedRule (k := ⟨[], locate (at_ h 2 1) "a: b".toList, locate (at_ h 2 5) [' '], at_ h 2 6, at_ h 2 7⟩)
    (ts := [('a', at_ h 2 1)]) (cs := [(':', at_ h 2 2)]) (double := false)
    (by intro b hb; cases hb) (.inl rfl) hl hk (show 2 < 4 by decide) (by simp [locate])
    hc
    (not_varLike (by rw [e]; decide) (by rw [e]; unfold varWords; decide))
    (by rintro ⟨w, hw, hp⟩; rw [e] at hp; revert w; unfold directiveWords; decide) rfl (wordList_one (by simp) (by unfold WordChar; simp; decide)) rfl
    (.some (gap := [(' ', at_ h 2 3)]) (by unfold Blanks; simp) (wb _)) hv

/-- A file with a line that calls `eval`, a rule that goes over two lines, and an assignment: afterwards all three are there. -/
example (fs : Fs) : ∃ st', FileGives fs "Makefile".toList "$(eval y=2)\na: b \\\n c\nx=1\n".toList St.init st' ∧
    st'.vars ['y'] = some (.recursive, Expr.text [('2', at_ ⟨0⟩ 1 10)]) ∧
    st'.vars ['x'] = some (.recursive, Expr.text [('1', at_ ⟨0⟩ 4 3)]) ∧
    st'.ruleTable ['a'] = some ⟨[[('b', at_ ⟨0⟩ 2 4)], [('c', at_ ⟨0⟩ 3 2)]], [], .standard⟩ := by
  have hm : Means fs '\t' NoSwitch NoOpenRule ⟨St.init.vars, St.init.ruleTable, [], none⟩
      (locate (at_ ⟨0⟩ 1 1) ("$(eval y=2)".toList ++ '\n' :: ("a: b \\\n c\n".toList ++ ("x=1".toList ++ '\n' :: []))))
      (fun m => m.current = none ∧ m.vars ['y'] = some (.recursive, Expr.text [('2', at_ ⟨0⟩ 1 10)]) ∧
        m.vars ['x'] = some (.recursive, Expr.text [('1', at_ ⟨0⟩ 4 3)]) ∧
        m.rules ['a'] = some ⟨[[('b', at_ ⟨0⟩ 2 4)], [('c', at_ ⟨0⟩ 3 2)]], [], .standard⟩) :=
    eval_line ⟨0⟩ (fun v r => rfl) (.line (continued_line ⟨0⟩) (.line (assign_line ⟨0⟩ 4 (by intro b hb; cases hb))
      (.nil ⟨rfl, rfl, rfl, rfl⟩)))
  obtain ⟨m, st', ⟨h0, h1, h2, h3⟩, h4, h5, h6⟩ := C62_project_partial fs (text := "$(eval y=2)\na: b \\\n c\nx=1\n".toList)
    (name := "Makefile".toList) (st := St.init)
    (by unfold AsciiS; decide) (.none (free_locate (by decide))) rfl St.init_wf init_known hm (fun m h => h.1)
  exact ⟨st', h4, by rw [h5, h1], by rw [h5, h2], by rw [h6, MakeState.close_none h0, h3]⟩

/-- Three of the differences at once.  The command of the branch not taken is added to the rule, `y` is lost since the first
`endif` does not turn processing on again, and `x` is set since the next conditional does. -/
example (fs : Fs) : ∃ st', FileGives fs "Makefile".toList
      "a: b\nifeq (a,b)\n\techo\nendif\ny=1\nifeq (a,a)\nendif\nx=1\n".toList St.init st' ∧
    st'.vars ['y'] = none ∧ st'.vars ['x'] = some (.recursive, Expr.text [('1', at_ ⟨0⟩ 8 3)]) ∧
    st'.ruleTable ['a'] = some ⟨[[('b', at_ ⟨0⟩ 1 4)]], [Expr.text (locate (at_ ⟨0⟩ 3 2) "echo".toList)], .standard⟩ := by
  have l1 := fun {m : MakeState} (hb : AllTaken m.branches) (hc : m.current = none) => LineDoes.effective (bs := [])
    hb (rule_line (ok := fun _ _ => True) ⟨0⟩ (rest := "ifeq (a,b)\n\techo\nendif\ny=1\nifeq (a,a)\nendif\nx=1\n".toList) hb hc) m.close_branches
  have l8 := fun {m : MakeState} (hb : AllTaken m.branches) => LineDoes.effective (bs := [])
    hb (assign_line (ok := fun _ _ => True) ⟨0⟩ 8 (rest := []) hb) m.close_branches
  obtain ⟨p1, p2, e2⟩ := condText_test (l := at_ ⟨0⟩ 2 1) (kw := "ifeq".toList) (a := ['a']) (b := ['b'])
    (inverted := false) (by decide) (by decide) (by decide)
  obtain ⟨q1, q2, e6⟩ := condText_test (l := at_ ⟨0⟩ 6 1) (kw := "ifeq".toList) (a := ['a']) (b := ['a'])
    (inverted := false) (by decide) (by decide) (by decide)
  have r : RecipeText '\t' (locate (at_ ⟨0⟩ 3 1) ("\techo\n".toList ++ "endif\ny=1\nifeq (a,a)\nendif\nx=1\n".toList))
      (locate (at_ ⟨0⟩ 3 2) "echo".toList) (locate (at_ ⟨0⟩ 4 1) "endif\ny=1\nifeq (a,a)\nendif\nx=1\n".toList) :=
    .last (l := at_ ⟨0⟩ 3 1) (line := locate (at_ ⟨0⟩ 3 2) "echo".toList)
      (tail := locate (at_ ⟨0⟩ 3 6) ("\n".toList ++ "endif\ny=1\nifeq (a,a)\nendif\nx=1\n".toList)) (free_locate (by decide))
      (by rw [textOf_locate]; decide) (.inr ⟨_, rfl⟩)
  have hm : Does fs '\t' true ⟨St.init.vars, St.init.ruleTable, [], none⟩
      (locate (at_ ⟨0⟩ 1 1) "a: b\nifeq (a,b)\n\techo\nendif\ny=1\nifeq (a,a)\nendif\nx=1\n".toList)
      (fun _ m => m.vars ['y'] = none ∧ m.vars ['x'] = some (.recursive, Expr.text [('1', at_ ⟨0⟩ 8 3)]) ∧
        m.rules ['a'] = some ⟨[[('b', at_ ⟨0⟩ 1 4)]], [Expr.text (locate (at_ ⟨0⟩ 3 2) "echo".toList)], .standard⟩) := by
    refine .line (l1 (m := ⟨St.init.vars, St.init.ruleTable, [], none⟩) (by intro b hb; cases hb) rfl) ?_
    refine .line (.test (on1 := false) (.inr (by rw [textOf_locate]; decide))
      (logical_locate (line := "ifeq (a,b)".toList) (rest := "\techo\nendif\ny=1\nifeq (a,a)\nendif\nx=1\n".toList)
        (by decide) (by simp) (by decide)) (by rw [dropWhile_locate (by simp)]; exact e2) (Expands.text _ _) (Expands.text _ _)
      ⟨nofun, fun h => absurd (h _ (List.mem_append_right _ (List.mem_singleton_self _)))
        (by rw [textOf_locate, textOf_locate]; decide)⟩) ?_
    refine .line (.recipe rfl r (reads_text (free_locate (by decide)))) ?_
    refine .line (.endif (bs := []) (.inr (by rw [textOf_locate]; decide))
      (logical_locate (line := "endif".toList) (rest := "y=1\nifeq (a,a)\nendif\nx=1\n".toList)
        (by decide) (by simp) (by decide)) (by rw [dropWhile_locate (by simp)]; exact condText_endif) rfl) ?_
    refine .line (.skip (logical_locate (line := "y=1".toList) (rest := "ifeq (a,a)\nendif\nx=1\n".toList)
        (by decide) (by simp) (by decide)) (by simp [locate]) (.inr (by rw [textOf_locate]; decide))
        (not_condLike_locate (by simp) (by unfold condWords; decide))) ?_
    refine .line (.test (on1 := true) (.inr (by rw [textOf_locate]; decide))
      (logical_locate (line := "ifeq (a,a)".toList) (rest := "endif\nx=1\n".toList)
        (by decide) (by simp) (by decide)) (by rw [dropWhile_locate (by simp)]; exact e6) (Expands.text _ _) (Expands.text _ _)
      ⟨fun _ b hb => by
        simp at hb
        subst hb
        decide, fun _ => rfl⟩) ?_
    refine .line (.endif (bs := []) (.inr (by rw [textOf_locate]; decide))
      (logical_locate (line := "endif".toList) (rest := "x=1\n".toList)
        (by decide) (by simp) (by decide)) (by rw [dropWhile_locate (by simp)]; exact condText_endif) rfl) ?_
    refine .line (l8 (m := ⟨St.init.vars, St.init.ruleTable, [], _⟩) (by intro b hb; cases hb)) (.nil ⟨rfl, rfl, rfl⟩)
  obtain ⟨on, m, st', ⟨h1, h2, h3⟩, h4, h5, h6, _⟩ := C62_exact fs (name := "Makefile".toList) (st := St.init)
    (by unfold AsciiS; decide) rfl St.init_wf init_known (.plain (free_locate (by decide)) hm)
  exact ⟨st', h4, by rw [h5, h1], by rw [h5, h2], by rw [h6, h3]⟩

private def commentedFile : Fs := fun f => if f = ['f'] then .text "y=1#d\n".toList else .missing

/-- A file that consists of the line `y=1#d`. -/
private theorem commented_line (fs : Fs) (h : FileName) {v : Vars} {r : Rules} : DoesFile fs '\t' ⟨v, r, [], none⟩
    (locate (.source 1 1 h) "y=1#d\n".toList)
    (fun _ m => m = ⟨v.set ['y'] .recursive (Expr.text [('1', at_ h 1 3)]), r, [], none⟩) := by
  have ht : Trailed (locate (at_ h 1 1) "y=1#d\n".toList) (locate (at_ h 1 1) "y=1".toList) [] :=
    .mk (blanks := []) (line := locate (at_ h 1 1) "y=1".toList) (u := locate (at_ h 1 5) "d\n".toList)
      (by intro x hx; cases hx) (head_locate (q := fun c => ¬ (c = ' ' ∨ c = '\t')) (by simp)) (free_locate (by decide))
      (by rw [textOf_locate]; decide)
      (.one (free_locate (by decide))
        (.stop (locate (at_ h 1 5) "d".toList) _ _ (free_locate (by decide)) (by rw [textOf_locate]; decide)))
  exact .trailed (on := true) (.assign (.inl rfl) ht
      (assignText_locate (name := ['y']) (gap := []) (op := ['=']) (gap' := []) (value := ['1'])
        (by unfold NameChar; decide) (by simp) .recursive (by simp) (by simp))
      (not_condLike_locate (by simp) (by unfold condWords; decide)) (reads_text (free_locate (by decide)))
      (reads_text (free_locate (by decide))) (by simp) (.recursive (denotes_locate (by decide)) .nil))
      ⟨fun _ b hb => (by cases hb), fun _ => rfl⟩ (.nil rfl)

/-- `-include g f` with a comment behind it, where `f` contains an assignment with a comment behind it. -/
example : ∃ h st', FileGives commentedFile "Makefile".toList "-include g f # c\nx=1\n".toList St.init st' ∧
    st'.vars ['y'] = some (.recursive, Expr.text [('1', at_ h 1 3)]) ∧
    st'.vars ['x'] = some (.recursive, Expr.text [('1', at_ ⟨0⟩ 2 3)]) := by
  have ht : Trailed (locate (at_ ⟨0⟩ 1 1) "-include g f # c\nx=1\n".toList) (locate (at_ ⟨0⟩ 1 1) "-include g f ".toList)
      (locate (at_ ⟨0⟩ 2 1) "x=1\n".toList) :=
    .mk (blanks := []) (line := locate (at_ ⟨0⟩ 1 1) "-include g f ".toList) (u := locate (at_ ⟨0⟩ 1 15) " c\nx=1\n".toList)
      (by intro x hx; cases hx) (head_locate (q := fun c => ¬ (c = ' ' ∨ c = '\t')) (by simp)) (free_locate (by decide))
      (by rw [textOf_locate]; decide)
      (.one (free_locate (by decide))
        (.stop (locate (at_ ⟨0⟩ 1 15) " c".toList) _ _ (free_locate (by decide)) (by rw [textOf_locate]; decide)))
  have hi : IncludeText (locate (at_ ⟨0⟩ 1 1) "-include g f ".toList) true
      (locate ((at_ ⟨0⟩ 1 1).after "-include".toList) " g f ".toList) := by
    rw [show "-include g f ".toList = "-include".toList ++ " g f ".toList from rfl, locate_append]
    exact .soft (by rw [textOf_locate]; decide)
  have hl := fun {m : MakeState} (hb : AllTaken m.branches) => LineDoes.effective (bs := [])
    hb (assign_line (ok := fun _ _ => True) ⟨0⟩ 2 (rest := []) hb) m.close_branches
  have hm : DoesFile commentedFile '\t' ⟨St.init.vars, St.init.ruleTable, [], none⟩
      (locate (at_ ⟨0⟩ 1 1) "-include g f # c\nx=1\n".toList)
      (fun _ m => (∃ h, m.vars ['y'] = some (.recursive, Expr.text [('1', at_ h 1 3)])) ∧
        m.vars ['x'] = some (.recursive, Expr.text [('1', at_ ⟨0⟩ 2 3)])) := by
    refine .trailedInclude (M1 := fun m => ∃ h, m = ⟨St.init.vars.set ['y'] .recursive (Expr.text [('1', at_ h 1 3)]),
        St.init.ruleTable, [], none⟩) (.inl rfl) ht hi
      (not_varLike (by rw [textOf_locate]; decide) (by rw [textOf_locate]; unfold varWords; decide))
      (reads_text (free_locate (by decide))) (Expands.text _ _) (PlainNames.names ⟨free_locate (by decide), free_locate (by decide)⟩)
      (.skip rfl (.file rfl (by unfold AsciiS; decide) (fun h => commented_line commentedFile h) (fun h on m hm => ?_))) ?_
    · subst hm
      exact .done ⟨h, rfl⟩
    · rintro _ ⟨h, rfl⟩
      exact .line (hl (m := ⟨_, _, [], none⟩) (by intro b hb; cases hb)) (.nil ⟨⟨h, rfl⟩, rfl⟩)
  obtain ⟨on, m, st', ⟨⟨h, h1⟩, h2⟩, h4, h5, _, _⟩ := C62_exact commentedFile (name := "Makefile".toList) (st := St.init)
    (by unfold AsciiS; decide) rfl St.init_wf init_known hm
  exact ⟨h, st', h4, by rw [h5, h1], by rw [h5, h2]⟩

end Hastur
