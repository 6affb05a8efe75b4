import Verif.Proofs.BadLine
import Verif.Proofs.BadDefine
import Verif.Proofs.BadRule
import Verif.Proofs.BadAssign
import Verif.Proofs.Demo
import Verif.Proofs.RuleDemo
/-
C81: lines with a malformed expression.
-/
namespace Hastur

open Res Span

/-- The full claim: an assignment, include line or rule line of which an expression is not well-formed is never accepted. -/
def C81_full : Prop :=
  ∀ (fs : Fs) (P : Block) (i : Span) (t line rest : List LChar) (p : PState) (st : St) (k : ParseErrorKind),
    AtLine P i t line rest p st → p.currentRule = none ∨ (textOf t).head? ≠ some st.commandChar → p.ignoring = false →
    ¬ CondLike (line.dropWhile lblank) →
    BadLine line k ∨ Physical t line rest ∧ (textOf line).head? ≠ some st.commandChar ∧ ¬ VarLike line ∧
      ¬ DirectiveLike line ∧ BadRule st.env line k → Rejects fs i p st

private def noFs : Fs := fun _ => .missing

/-- C81 for references that are not closed, in names and values of assignments, and for include lines: the line is
reported, and nothing has happened.  Missing: assignments with function calls that have too few or too many arguments, see
C81_assignments and C81_dropped. -/
theorem C81_reported_partial (fs : Fs) {P : Block} {i : Span} {t line rest : List LChar} {p : PState} {st : St}
    {k : ParseErrorKind} (h : AtLine P i t line rest p st)
    (hr : p.currentRule = none ∨ (textOf t).head? ≠ some st.commandChar) (ha : p.ignoring = false)
    (hc : ¬ CondLike (line.dropWhile lblank)) (hb : BadLine line k) (hk : k = .unterminatedVariable ∨ ¬ VarLike line) (r : Rec) :
    parseLine fs r p st i = .ok (.err (.failure (.custom k)), p, st) := by
  cases hb with
  | name h1 h2 =>
    obtain rfl := hk.resolve_right fun h => h (.assign h1)
    exact parseLine_unclosed fs h.found ha hr h1 hc (.inl h2) r
  | value h1 h2 h3 =>
    obtain rfl := hk.resolve_right fun h => h (.assign h1)
    exact parseLine_unclosed fs h.found ha hr h1 hc (.inr ⟨_, h2, h3⟩) r
  | files h1 h2 h3 => exact parseLine_badInclude fs h.found hr ha h1 h2 h3 r

/-- The same for a line that starts a definition, if an operator follows the malformed name: the line is reported, whatever
the name lacks. -/
theorem C81_define (fs : Fs) {P : Block} {i : Span} {t line rest : List LChar} {p : PState} {st : St} {k : ParseErrorKind}
    (h : AtLine P i t line rest p st) (hr : p.currentRule = none ∨ (textOf t).head? ≠ some st.commandChar)
    (ha : p.ignoring = false) (hb : BadDefine line k) (r : Rec) :
    parseLine fs r p st i = .ok (.err (.failure (.custom k)), p, st) :=
  parseLine_badDefine fs h.found hr ha hb r

/-- The same for the lines of a definition, also for those that are not needed to find its end. -/
theorem C81_definition (fs : Fs) {P : Block} (hP : P.content.length ≤ 1) (hm : Block.Mono P) {i : Span} {line rest : List LChar}
    {k : ParseErrorKind} {p : PState} {st : St} {d : DefineState} (h : i.At P (line ++ rest)) (hl : WholeLine line rest)
    (hf : Free '#' (line ++ rest)) (hr : Reads line (.error k)) (hc : p.currentRule = none)
    (hd : p.currentDefine = some d) (r : Rec) :
    parseLine fs r p st i = .ok (.err (.failure (.custom k)), p, st) :=
  parseLine_badBody fs hP hm h hl hf hr hc hd r

/-- The same for rule lines that are not closed or have a malformed call among their targets, their dependencies or in
their command, whatever else is on the line. -/
theorem C81_rules (fs : Fs) {P : Block} {i : Span} {t line rest : List LChar} {p : PState} {st : St} {k : ParseErrorKind}
    (h : AtLine P i t line rest p st) (hr : p.currentRule = none ∨ (textOf t).head? ≠ some st.commandChar)
    (ha : p.ignoring = false) (hl : Physical t line rest)
    (h1 : (textOf line).head? ≠ some st.commandChar) (h2 : ¬ CondLike line) (h3 : ¬ VarLike line) (h4 : ¬ DirectiveLike line)
    (hb : BadRule st.env line k) : Rejects fs i p st :=
  parseLine_badRule fs h hr ha hl h1 h2 h3 h4 hb

/-- The same for assignments with a malformed value: after `:=` or `::=` always, after the other operators if the malformed
reference or call stands in front of any semicolon and no word in front of it expands to nothing. -/
theorem C81_assignments (fs : Fs) {P : Block} {i : Span} {t line rest name value : List LChar} {ty : AssignType} {p : PState}
    {st : St} {k : ParseErrorKind} (h : AtLine P i t line rest p st)
    (hr : p.currentRule = none ∨ (textOf t).head? ≠ some st.commandChar) (ha : p.ignoring = false) (hl : Physical t line rest)
    (h1 : (textOf line).head? ≠ some st.commandChar) (h2 : ¬ CondLike line) (h3 : ¬ DirectiveLike line)
    (h4 : ∀ w ∈ varWords, ¬ w <+: (textOf line).map lower) (hassign : AssignText line name ty value) (hn : name ≠ [])
    (hw : ∀ x ∈ name, WordChar x.1) (hgap : (textOf (line.drop name.length)).head? ∈ [some ' ', some '\t'])
    (hrd : Reads value (.error k)) (hb : BadValue st.env ty value) : Rejects fs i p st :=
  parseLine_badAssign fs h hr ha hl h1 h2 h3 h4 hassign hn hw hgap hrd hb

/-- What the code does otherwise: the line is an assignment `name = words; more`, and its value is malformed because a
function call has too few or too many arguments.  Then the whole line is dropped without any complaint: the variable is
not set. -/
theorem C81_dropped (fs : Fs) {P : Block} {i : Span} {t line rest name gap gap' ts u : List LChar} {ws : List (List LChar)}
    {l l' : Location} {p : PState} {st : St} {k : ParseErrorKind} (h : Ready P i t line rest p st) (hl : Physical t line rest)
    (hline : line = (name ++ (gap ++ ('=', l) :: (gap' ++ ts))) ++ (';', l') :: u)
    (ha : AssignText line name .recursive (ts ++ (';', l') :: u)) (hn : name ≠ []) (hw : ∀ x ∈ name, WordChar x.1)
    (hg : Blanks gap) (hg1 : gap ≠ []) (hg' : Blanks gap') (ht : WordList ts ws)
    (hr : Reads (ts ++ (';', l') :: u) (.error k)) (hk : k ≠ .unterminatedVariable)
    (hc : (textOf line).head? ≠ some st.commandChar) (h1 : ¬ CondLike line) (h2 : ¬ DirectiveLike line)
    (h3 : ∀ w ∈ varWords, ¬ w <+: (textOf line).map lower) : LineGives fs P i p st rest p st :=
  parseLine_dropped fs h hl hline hc h1 h2 h3 ha hk (.inr ⟨_, reads_names fun x hx => .inl (hw x hx), hr⟩) hw hn hg hg1 hg' ht

/-! ### Examples -/

private abbrev words_ : Str := "x = a; $(words b,c)".toList

private theorem words_value : Reads (locate .synthetic "a; $(words b,c)".toList) (.error (.extraArguments "words".toList)) := by
  refine .char (by decide) (o := .error _) (.char (by decide) (o := .error _) (.char (by decide) (o := .error _) (.paren ?_)))
  exact .call (f := .words) (a := locate .synthetic "b,c".toList) (by rfl)
    (.extra (.inr rfl) (x := locate .synthetic "b".toList) (y := locate .synthetic ",c".toList) (by rfl) (by simp [locate]))

private theorem words_assign : AssignText (locate .synthetic words_) (locate .synthetic "x".toList) .recursive
    (locate .synthetic "a; $(words b,c)".toList) :=
  assignText_locate (l := .synthetic) (name := "x".toList) (gap := " ".toList) (op := "=".toList) (gap' := " ".toList)
    (value := "a; $(words b,c)".toList) (by unfold NameChar; decide) (by decide) .recursive (by decide) (by decide)

private theorem words_cond : ¬ CondLike (locate .synthetic words_) :=
  not_condLike (by simp [words_]) (by unfold condWords; decide)

private theorem words_dropped (rest : Str) (ha : AsciiS (words_ ++ '\n' :: rest)) (hr : '#' ∉ words_ ++ '\n' :: rest) :
    LineGives noFs (textBlock .synthetic (words_ ++ '\n' :: rest)) (textBlock .synthetic (words_ ++ '\n' :: rest)).span
      PState.new St.init (locate .synthetic rest) PState.new St.init := by
  refine C81_dropped noFs (ready_locate (l := .synthetic) ha hr (by decide) (by simp [words_]) (by decide) rfl St.init_wf)
    (physical_locate (l := .synthetic) (by decide) (by simp [words_]) (by decide))
    (name := locate .synthetic "x".toList) (gap := locate .synthetic " ".toList) (gap' := locate .synthetic " ".toList)
    (ts := locate .synthetic "a".toList) (u := locate .synthetic " $(words b,c)".toList) (ws := [locate .synthetic "a".toList])
    rfl words_assign (by simp [locate]) (mem_locate (q := WordChar) (by unfold WordChar; decide))
    (by unfold Blanks; simp [locate]) (by simp [locate]) (by unfold Blanks; simp [locate])
    (.last (w := locate .synthetic "a".toList) (gap := []) (by simp [locate])
      (mem_locate (q := WordChar) (by unfold WordChar; decide)) (by intro x hx; cases hx))
    words_value (by simp) (by rw [textOf_locate]; decide) words_cond ?_ (by rw [textOf_locate]; unfold varWords; decide)
  rintro ⟨w, hw, hp⟩
  rw [textOf_locate] at hp
  revert w
  unfold directiveWords
  decide

/-- `x = a; $(words b,c)` is accepted, and x is not set. -/
theorem C81_refuted : ¬ C81_full := by
  intro h
  obtain ⟨N, j, _, hN⟩ := words_dropped [] (by unfold AsciiS; decide) (by decide)
  exact h noFs _ _ _ _ _ _ _ _ (atLine_locate (l := .synthetic) (line := words_) (rest := []) (by unfold AsciiS; decide)
    (by decide) (by decide) (by simp [words_]) (by decide) rfl rfl St.init_wf) (.inl rfl) rfl
    (not_condLike_locate (by simp [words_]) (by unfold condWords; decide))
    (.inl (.value words_assign (reads_text (free_locate (by decide))) words_value)) N j _ _ (hN N (Nat.le_refl _))

/-- `x = $(a` is reported. -/
example (r : Rec) (rest : Str) (ha : AsciiS ("x = $(a".toList ++ '\n' :: rest)) (hr : '#' ∉ "x = $(a".toList ++ '\n' :: rest) :
    parseLine noFs r PState.new St.init (textBlock .synthetic ("x = $(a".toList ++ '\n' :: rest)).span =
      .ok (.err (.failure (.custom .unterminatedVariable)), PState.new, St.init) :=
  C81_reported_partial noFs (atLine_locate (l := .synthetic) (line := "x = $(a".toList) ha hr (by decide) (by simp) (by decide)
    rfl rfl St.init_wf) (.inl rfl) rfl (not_condLike_locate (by simp) (by unfold condWords; decide))
    (.value (name := locate .synthetic "x".toList) (ty := .recursive) (value := locate .synthetic "$(a".toList)
      (assignText_locate (l := .synthetic) (name := "x".toList) (gap := " ".toList) (op := "=".toList) (gap' := " ".toList)
        (value := "$(a".toList) (by unfold NameChar; decide) (by decide) .recursive (by decide) (by decide))
      (reads_text (free_locate (by decide))) (.paren .unclosed)) (.inl rfl) r

private theorem define_bad : BadDefine (locate .synthetic "define $(a =".toList) .unterminatedVariable := by
  have ha : AssignText (locate .synthetic "$(a =".toList) _ _ _ :=
    assignText_locate (name := "$(a".toList) (gap := [' ']) (op := "=".toList) (gap' := []) (value := [])
      (by unfold NameChar; decide) (by simp) .recursive (by simp) (by simp)
  refine .mk (kw := locate .synthetic "define".toList) (gap := locate .synthetic [' '])
    (rest := locate .synthetic "$(a =".toList) (by rw [textOf_locate]; decide)
    (fun y hy => mem_locate (q := fun c => c = ' ' ∨ c = '\t') (by decide) y hy)
    (head_locate (q := fun c => ¬ (c = ' ' ∨ c = '\t')) (by simp)) ?_ ha (.paren .unclosed)
  intro n ty v h
  generalize e : (locate .synthetic "define".toList ++ (locate .synthetic [' '] ++ locate .synthetic "$(a =".toList)) = line at h
  obtain ⟨c, h1, h2⟩ := h.operator
  rw [← e] at h1
  simp only [textOf_append, textOf_locate] at h1
  have : c = '$' := by
    have e : ((("define".toList ++ ([' '] ++ "$(a =".toList)).dropWhile isNameChar).dropWhile isBlankChar).head? = some '$' := by decide
    rw [e] at h1
    exact (Option.some.inj h1).symm
  subst this
  revert h2
  decide

/-- `define $(a =` is reported. -/
example (r : Rec) (rest : Str) (ha : AsciiS ("define $(a =".toList ++ '\n' :: rest))
    (hr : '#' ∉ "define $(a =".toList ++ '\n' :: rest) :
    parseLine noFs r PState.new St.init (textBlock .synthetic ("define $(a =".toList ++ '\n' :: rest)).span =
      .ok (.err (.failure (.custom .unterminatedVariable)), PState.new, St.init) :=
  C81_define noFs (atLine_locate (l := .synthetic) (line := "define $(a =".toList) ha hr (by decide) (by simp) (by decide)
    rfl rfl St.init_wf) (.inl rfl) rfl define_bad r

/-- `include $(words a,b)` is reported. -/
example (r : Rec) (rest : Str) (ha : AsciiS ("include $(words b,c)".toList ++ '\n' :: rest))
    (hr : '#' ∉ "include $(words b,c)".toList ++ '\n' :: rest) :
    parseLine noFs r PState.new St.init (textBlock .synthetic ("include $(words b,c)".toList ++ '\n' :: rest)).span =
      .ok (.err (.failure (.custom (.extraArguments "words".toList))), PState.new, St.init) := by
  have hv : ¬ VarLike (locate .synthetic "include $(words b,c)".toList) :=
    not_varLike (by rw [textOf_locate]; decide) (by rw [textOf_locate]; unfold varWords; decide)
  refine C81_reported_partial noFs (atLine_locate (l := .synthetic) (line := "include $(words b,c)".toList) ha hr (by decide)
    (by simp) (by decide) rfl rfl St.init_wf) (.inl rfl) rfl (not_condLike_locate (by simp) (by unfold condWords; decide))
    (.files (.hard (kw := locate .synthetic "include".toList) (args := locate .synthetic " $(words b,c)".toList) (by decide)) hv
      ?_) (.inr hv) r
  refine .char (by decide) (o := .error _) (.paren ?_)
  exact .call (f := .words) (a := locate .synthetic "b,c".toList) (by rfl)
    (.extra (.inr rfl) (x := locate .synthetic "b".toList) (y := locate .synthetic ",c".toList) (by rfl) (by simp [locate]))

/-- `$(a` inside a definition is reported. -/
example (r : Rec) (d : DefineState) :
    parseLine noFs r { PState.new with currentDefine := some d } St.init (textBlock .synthetic "$(a\n".toList).span =
      .ok (.err (.failure (.custom .unterminatedVariable)), { PState.new with currentDefine := some d }, St.init) :=
  C81_definition noFs (line := locate .synthetic "$(a\n".toList) (rest := []) (by simp [textBlock]) (textBlock_mono _ _)
    (by rw [List.append_nil]; exact textBlock_at (by unfold AsciiS; decide))
    (by
      have : WholeLine (locate .synthetic "$(a".toList ++ [('\n', .synthetic)]) [] := .feed (free_locate (by decide))
      exact this)
    (by rw [List.append_nil]; exact free_locate (by decide)) (.paren .unclosed) rfl rfl r

private theorem rule_rejected {line rest : Str} {k : ParseErrorKind} (ha : AsciiS (line ++ '\n' :: rest))
    (hr : '#' ∉ line ++ '\n' :: rest) (hn : '\n' ∉ line) (hev : trailingSlashes line % 2 = 0)
    (h0 : ∀ c, line.head? = some c → ¬ (c = ' ' ∨ c = '\t')) (he : '=' ∉ line)
    (h1 : ∀ w ∈ condWords ++ varWords ++ directiveWords, ¬ w <+: line.map lower)
    (hb : BadRule St.init.env (locate .synthetic line) k) :
    Rejects noFs (textBlock .synthetic (line ++ '\n' :: rest)).span PState.new St.init := by
  refine C81_rules noFs (atLine_locate (l := .synthetic) ha hr hn h0 hev rfl rfl St.init_wf) (.inl rfl) rfl
    (physical_locate (l := .synthetic) hn h0 hev) ?_ (not_condLike h0 fun w hw => h1 w (by simp [hw])) ?_ ?_ hb
  · rw [textOf_locate]
    exact fun h => h0 _ h (.inr rfl)
  · exact not_varLike (by rw [textOf_locate]; exact he) (by rw [textOf_locate]; exact fun w hw => h1 w (by simp [hw]))
  · rintro ⟨w, hw, hp⟩
    rw [textOf_locate] at hp
    exact h1 w (by simp [hw]) hp

private theorem a_expands {s : Str} (hs : s = "a".toList) : TargetsExpand St.init.env (locate .synthetic s) (locate .synthetic s) [] := by
  subst hs
  exact .last (w := locate .synthetic "a".toList) (gap := []) (es := Expr.text (locate .synthetic "a".toList))
    (.char (by unfold WordChar; decide) .nil) (by simp [locate]) (by intro x hx; cases hx)
    (reads_text (free_locate (by decide))) (.text _ _) (mem_locate (q := fun c => WordChar c ∨ isWhitespace c = true)
      (by unfold WordChar; decide)) (by simp [locate])

/-- `a: $(b` is rejected: a dependency is not closed. -/
example (rest : Str) (ha : AsciiS ("a: $(b".toList ++ '\n' :: rest)) (hr : '#' ∉ "a: $(b".toList ++ '\n' :: rest) :
    Rejects noFs (textBlock .synthetic ("a: $(b".toList ++ '\n' :: rest)).span PState.new St.init :=
  rule_rejected ha hr (by decide) (by decide) (by simp) (by decide) (by unfold condWords varWords directiveWords; decide)
    (.deps (ts := locate .synthetic "a".toList) (cs := locate .synthetic ":".toList) (ds := locate .synthetic " $(b".toList)
      (tail := []) (double := false) (a_expands rfl) (by rw [textOf_locate]; rfl) (by rw [textOf_locate]; decide)
      (mem_locate (q := (· ∉ [';', '#', '\\'])) (by decide))
      (.char (by decide) (o := .error _) (.paren .unclosed)) .nil)

/-- `a: b; $(words c,d)` is rejected: the command is malformed. -/
example (rest : Str) (ha : AsciiS ("a: b; $(words c,d)".toList ++ '\n' :: rest))
    (hr : '#' ∉ "a: b; $(words c,d)".toList ++ '\n' :: rest) :
    Rejects noFs (textBlock .synthetic ("a: b; $(words c,d)".toList ++ '\n' :: rest)).span PState.new St.init := by
  refine rule_rejected (k := .extraArguments "words".toList) ha hr (by decide) (by decide) (by simp) (by decide) (by unfold condWords varWords directiveWords; decide)
    (.command (ts := locate .synthetic "a".toList) (cs := locate .synthetic ":".toList) (ds := locate .synthetic " b".toList)
      (l := .synthetic) (cmd := locate .synthetic " $(words c,d)".toList) (double := false) (a_expands rfl)
      (by rw [textOf_locate]; rfl) (by rw [textOf_locate]; decide) (mem_locate (q := (· ∉ [';', '#', '\\'])) (by decide)) ?_)
  refine .char (by decide) (o := .error _) (.paren ?_)
  exact .call (f := .words) (a := locate .synthetic "c,d".toList) (by rfl)
    (.extra (.inr rfl) (x := locate .synthetic "c".toList) (y := locate .synthetic ",d".toList) (by rfl) (by simp [locate]))

/-- `a $(b: c` is rejected: the second target is not closed. -/
example (rest : Str) (ha : AsciiS ("a $(b: c".toList ++ '\n' :: rest)) (hr : '#' ∉ "a $(b: c".toList ++ '\n' :: rest) :
    Rejects noFs (textBlock .synthetic ("a $(b: c".toList ++ '\n' :: rest)).span PState.new St.init := by
  refine rule_rejected ha hr (by decide) (by decide) (by simp) (by decide) (by unfold condWords varWords directiveWords; decide)
    (.targets (ts := locate .synthetic "a $(b: c".toList) (tail := [])
      (.more (w := locate .synthetic "a".toList) (gap := locate .synthetic " ".toList) (es := Expr.text (locate .synthetic "a".toList))
        (.char (by unfold WordChar; decide) .nil) (by simp [locate]) (by unfold Blanks; simp [locate]) (by simp [locate])
        (reads_text (free_locate (by decide))) (.text _ _) (mem_locate (q := fun c => WordChar c ∨ isWhitespace c = true)
          (by unfold WordChar; decide)) (by simp [locate])
        (.unclosed (p := []) (t := locate .synthetic "b: c".toList) (es := []) .nil .nil ?_))
      (mem_locate (q := (· ∉ [';', '#', '\\'])) (by decide)) .nil)
  intro a l b e _
  have : (')', l) ∈ locate .synthetic "b: c".toList := by rw [e]; simp
  simp [locate] at this

/-- `$(words a,b): c` is rejected: the call among the targets has too many arguments. -/
example (rest : Str) (ha : AsciiS ("$(words a,b): c".toList ++ '\n' :: rest))
    (hr : '#' ∉ "$(words a,b): c".toList ++ '\n' :: rest) :
    Rejects noFs (textBlock .synthetic ("$(words a,b): c".toList ++ '\n' :: rest)).span PState.new St.init := by
  refine rule_rejected (k := .extraArguments "words".toList) ha hr (by decide) (by decide) (by simp) (by decide) (by unfold condWords varWords directiveWords; decide)
    (.targets (ts := locate .synthetic "$(words a,b): c".toList) (tail := [])
      (.closed (p := []) (name := locate .synthetic "words a,b".toList) (q := []) (u := locate .synthetic ": c".toList) (es := [])
        .nil .nil ?_ (.paren ?_) .nil (by rw [textOf_locate]; decide))
      (mem_locate (q := (· ∉ [';', '#', '\\'])) (by decide)) .nil)
  · repeat' first | exact .nil | refine .char (by decide) (by decide) ?_
  · exact .call (f := .words) (a := locate .synthetic "a,b".toList) (by rfl)
      (.extra (.inr rfl) (x := locate .synthetic "a".toList) (y := locate .synthetic ",b".toList) (by rfl) (by simp [locate]))

/-- With `s = b;c` the line `$(s) $(words c,d)` is rejected: the semicolon is in the value, and the rest of the line is
malformed. -/
example (rest : Str) (ha : AsciiS ("$(s) $(words c,d)".toList ++ '\n' :: rest))
    (hr : '#' ∉ "$(s) $(words c,d)".toList ++ '\n' :: rest) :
    Rejects noFs (textBlock .synthetic ("$(s) $(words c,d)".toList ++ '\n' :: rest)).span PState.new
      (St.init.define ['s'] (.constant .synthetic ⟨.synthetic, "b;c".toList⟩)) := by
  obtain ⟨hw, he⟩ := St.init_wf.define (s := ['s']) (a := .constant .synthetic ⟨.synthetic, "b;c".toList⟩) (f := .recursive)
    (by show AsciiS _; unfold AsciiS; decide)
  have hs := (he ['s']).trans (if_pos rfl)
  have h0 : ∀ c, "$(s) $(words c,d)".toList.head? = some c → ¬ (c = ' ' ∨ c = '\t') := by simp
  have h1 : ∀ w ∈ condWords ++ varWords ++ directiveWords, ¬ w <+: "$(s) $(words c,d)".toList.map lower := by
    unfold condWords varWords directiveWords; decide
  refine C81_rules (k := .extraArguments "words".toList) noFs (atLine_locate (l := .synthetic) ha hr (by decide) h0 (by decide) rfl rfl hw) (.inl rfl) rfl
    (physical_locate (l := .synthetic) (by decide) h0 (by decide)) (by rw [textOf_locate]; decide)
    (not_condLike h0 fun w hw => h1 w (by simp [hw]))
    (not_varLike (by rw [textOf_locate]; decide) (by rw [textOf_locate]; exact fun w hw => h1 w (by simp [hw]))) ?_
    (.hidden (line := locate .synthetic "$(s) $(words c,d)".toList) ?_ (mem_locate (q := (· ∉ [';', '#', '\\'])) (by decide)))
  · rintro ⟨w, hw, hp⟩
    rw [textOf_locate] at hp
    exact h1 w (by simp [hw]) hp
  · refine .here (w := locate .synthetic "$(s)".toList) (pre := locate .synthetic "b".toList) (l := .synthetic)
      (post := locate .synthetic "c".toList) (rest := locate .synthetic " $(words c,d)".toList)
      (es := [.ref .synthetic (Expr.text (locate .synthetic "s".toList))]) (vs := [['s']]) ?_ (by simp [locate]) ?_ ?_
      (mem_locate (q := (· ∉ [';', '\\'])) (by decide)) (by rw [textOf_locate]; decide) ?_
    · exact .ref (name := locate .synthetic "s".toList) (t := []) (.char (by decide) (by decide) .nil) (by rfl)
        (mem_locate (q := (· ∉ [';', '#', '\\'])) (by decide)) .nil
    · exact .paren (.ref (name := locate .synthetic "s".toList) (rest := []) (o := .ok []) (by rfl)
        (reads_text (free_locate (by decide))) .nil)
    · exact .defined (us := []) (n := locate .synthetic "s".toList) (u := locate .synthetic "b;c".toList) (Expands.text _ _) (by
        rintro ⟨a, b, c, h, _⟩
        have : ':' ∈ textOf (locate .synthetic "s".toList) := by rw [h]; simp
        rw [textOf_locate] at this
        revert this
        decide) hs (Expands.text _ _) .nil
    · refine .char (by decide) (o := .error _) (.paren ?_)
      exact .call (f := .words) (a := locate .synthetic "c,d".toList) (by rfl)
        (.extra (.inr rfl) (x := locate .synthetic "c".toList) (y := locate .synthetic ",d".toList) (by rfl) (by simp [locate]))

private theorem assign_rejected {name gap op gap' value rest : Str} {ty : AssignType} {k : ParseErrorKind}
    (ha : AsciiS ((name ++ (gap ++ (op ++ (gap' ++ value)))) ++ '\n' :: rest))
    (hr : '#' ∉ (name ++ (gap ++ (op ++ (gap' ++ value)))) ++ '\n' :: rest) (hn : '\n' ∉ name ++ (gap ++ (op ++ (gap' ++ value))))
    (hev : trailingSlashes (name ++ (gap ++ (op ++ (gap' ++ value)))) % 2 = 0)
    (h0 : ∀ c, (name ++ (gap ++ (op ++ (gap' ++ value)))).head? = some c → ¬ (c = ' ' ∨ c = '\t'))
    (h1 : ∀ w ∈ condWords ++ varWords ++ directiveWords, ¬ w <+: (name ++ (gap ++ (op ++ (gap' ++ value)))).map lower)
    (hname : ∀ c ∈ name, NameChar c) (hgap : ∀ c ∈ gap, c = ' ' ∨ c = '\t') (hop : OpText ty op)
    (hgap' : ∀ c ∈ gap', c = ' ' ∨ c = '\t') (hvalue : ∀ c, value.head? = some c → ¬ (c = ' ' ∨ c = '\t'))
    (hne : name ≠ []) (hw : ∀ c ∈ name, WordChar c)
    (hg : (gap ++ (op ++ (gap' ++ value))).head? ∈ [some ' ', some '\t']) (hrd : Reads (locate .synthetic value) (.error k))
    (hb : BadValue St.init.env ty (locate .synthetic value)) :
    Rejects noFs (textBlock .synthetic ((name ++ (gap ++ (op ++ (gap' ++ value)))) ++ '\n' :: rest)).span PState.new St.init := by
  have hsyn : ∀ s : Str, Location.synthetic.after s = .synthetic := by
    intro s
    induction s with
    | nil => rfl
    | cons c s ih => simpa [Location.after] using ih
  have hat := assignText_locate (l := .synthetic) hname hgap hop hgap' hvalue
  simp only [hsyn] at hat
  refine C81_assignments noFs (atLine_locate (l := .synthetic) ha hr hn h0 hev rfl rfl St.init_wf) (.inl rfl) rfl
    (physical_locate (l := .synthetic) hn h0 hev) ?_ (not_condLike h0 fun w hw => h1 w (by simp [hw])) ?_
    (by rw [textOf_locate]; exact fun w hw => h1 w (by simp [hw])) hat
    (fun e => hne (List.length_eq_zero_iff.mp (by rw [← locate_length .synthetic, e]; rfl))) (mem_locate hw) ?_ hrd hb
  · rw [textOf_locate]
    exact fun h => h0 _ h (.inr rfl)
  · rintro ⟨w, hw, hp⟩
    rw [textOf_locate] at hp
    exact h1 w (by simp [hw]) hp
  · rw [locate_append, List.drop_left, textOf_locate]
    exact hg

/-- `x := a; $(words b,c)` is rejected, although `x = a; $(words b,c)` is dropped. -/
example (rest : Str) (ha : AsciiS ("x := a; $(words b,c)".toList ++ '\n' :: rest))
    (hr : '#' ∉ "x := a; $(words b,c)".toList ++ '\n' :: rest) :
    Rejects noFs (textBlock .synthetic ("x := a; $(words b,c)".toList ++ '\n' :: rest)).span PState.new St.init :=
  assign_rejected (name := "x".toList) (gap := " ".toList) (op := ":=".toList) (gap' := " ".toList)
    (value := "a; $(words b,c)".toList) ha hr (by decide) (by decide) (by simp)
    (by unfold condWords varWords directiveWords; decide) (by unfold NameChar; decide) (by decide) .simple (by decide) (by decide)
    (by decide) (by unfold WordChar; decide) (by decide) words_value
    (.simple (mem_locate (q := (· ∉ ['#', '\\'])) (by decide)) words_value)

/-- `x += a $(words b,c) d; e` is rejected. -/
example (rest : Str) (ha : AsciiS ("x += a $(words b,c) d; e".toList ++ '\n' :: rest))
    (hr : '#' ∉ "x += a $(words b,c) d; e".toList ++ '\n' :: rest) :
    Rejects noFs (textBlock .synthetic ("x += a $(words b,c) d; e".toList ++ '\n' :: rest)).span PState.new St.init := by
  have hcall : Reads (locate .synthetic "$(words b,c)".toList) (.error (.extraArguments "words".toList)) :=
    .paren (.call (f := .words) (a := locate .synthetic "b,c".toList) (by rfl)
      (.extra (.inr rfl) (x := locate .synthetic "b".toList) (y := locate .synthetic ",c".toList) (by rfl) (by simp [locate])))
  refine assign_rejected (name := "x".toList) (gap := " ".toList) (op := "+=".toList) (gap' := " ".toList)
    (value := "a $(words b,c) d; e".toList) (k := .extraArguments "words".toList) ha hr (by decide) (by decide) (by simp)
    (by unfold condWords varWords directiveWords; decide) (by unfold NameChar; decide) (by decide) .append (by decide) (by decide)
    (by decide) (by unfold WordChar; decide) (by decide) ?_
    (.words (ts := locate .synthetic "a $(words b,c) d".toList) (tail := locate .synthetic "; e".toList) (by simp)
      (.more (w := locate .synthetic "a".toList) (gap := locate .synthetic " ".toList) (es := Expr.text (locate .synthetic "a".toList))
        (.char (by unfold WordChar; decide) .nil) (by simp [locate]) (by unfold Blanks; simp [locate]) (by simp [locate])
        (reads_text (free_locate (by decide))) (.text _ _) (mem_locate (q := fun c => WordChar c ∨ isWhitespace c = true)
          (by unfold WordChar; decide)) (by simp [locate])
        (.closed (p := []) (name := locate .synthetic "words b,c".toList) (q := []) (u := locate .synthetic " d".toList) (es := [])
          .nil .nil ?_ hcall .nil (by rw [textOf_locate]; decide)))
      (mem_locate (q := (· ∉ [';', '#', '\\'])) (by decide)) .semicolon)
  · refine .char (by decide) (o := .error _) (.char (by decide) (o := .error _) (.paren ?_))
    exact .call (f := .words) (a := locate .synthetic "b,c".toList) (by rfl)
      (.extra (.inr rfl) (x := locate .synthetic "b".toList) (y := locate .synthetic ",c".toList) (by rfl) (by simp [locate]))
  · repeat' first | exact .nil | refine .char (by decide) (by decide) ?_

end Hastur
