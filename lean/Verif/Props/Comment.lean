import Verif.Proofs.Points
import Verif.Props.Rules
import Verif.Proofs.Trailed
/-
C69: comment lines have no effect.
-/
namespace Hastur

open Res Span

private def noFs : Fs := fun _ => .missing

private theorem init_known : RulesKnown St.init.db St.init.names :=
  ⟨⟨List.nodup_nil, List.nodup_nil⟩, fun f r h => by cases h⟩

private abbrev at_ (line col : Nat) : Location := .source line col ⟨0⟩

/-- The full claim: a makefile means what it means without its comment lines. -/
def C69_full : Prop :=
  ∀ (fs : Fs) (text name : Str) (u : List LChar) (st : St) (m : MakeState), AsciiS text →
    Uncommented (locate (.source 1 1 (st.names.internFile name).1) text) u → isAscii st.commandChar = true →
    st.WF → RulesKnown st.db st.names → Makes st.commandChar NoSwitch ⟨st.vars, st.ruleTable, [], none⟩ u m →
    ∃ st', FileGives fs name text st st' ∧ st'.vars = m.vars ∧ st'.ruleTable = m.rules

/-- C69 for makefiles in which all comment lines stand at the top. -/
theorem C69_header_partial (fs : Fs) {text name : Str} {st : St} {m : MakeState} (ht : AsciiS text) {body : List LChar}
    (hc : CommentLines (locate (.source 1 1 (st.names.internFile name).1) text) body) (hf : Free '#' body)
    (hch : isAscii st.commandChar = true) (hw : st.WF) (hk : RulesKnown st.db st.names)
    (hm : Makes st.commandChar NoSwitch ⟨st.vars, st.ruleTable, [], none⟩ body m) :
    ∃ st', FileGives fs name text st st' ∧ st'.vars = m.vars ∧ st'.ruleTable = m.rules := by
  obtain ⟨st', h1, h2, h3, _⟩ := C41_makefile_partial fs ht (.comments hc hf) hch hw hk hm
  exact ⟨st', h1, h2, h3⟩

/-- C69 for the last comment lines of a text, at any point of it: whether a rule is open, a definition is being collected
or a branch is not taken, they are consumed and nothing else happens. -/
theorem C69_last_comments_partial {P : Block} {i : Span} {t rest : List LChar} (hi : i.At P t) (hc : CommentLines t rest)
    (hf : Free '#' rest) : ∃ j, j.At P rest ∧ ∀ (fs : Fs) (r : Rec) (p : PState) (st : St),
      parseLine fs r p st i = .ok (.done j (), p, st) :=
  parseLine_comments hc hf hi

/-- Where comments can be while a makefile is read: at any point after its first line, no comment character follows at all,
or the next character is one; and after that comment none follows.  So there is no point at which a line with a comment
behind it is read, except the very beginning. -/
theorem C69_points (fs : Fs) {n : Nat} {P : Block} {i j k : Span} {p p' p'' : PState} {st st' st'' : St} {start : List LChar}
    (hi : i.At P start) (hc : isAscii st.commandChar = true) (hs : LineSteps fs (recF fs n) i p st j p' st') (hij : i ≠ j)
    (hj : j.length ≠ 0) (hl : parseLine fs (recF fs n) p' st' j = .ok (.done k (), p'', st'')) :
    ∃ t rest, j.At P t ∧ k.At P rest ∧ (Free '#' t ∨ (textOf t).head? = some '#') ∧ Free '#' rest := by
  rcases hs.settled hc hi with ⟨h, _⟩ | ⟨t, h1, h2⟩
  · exact absurd h hij
  · have hc' : isAscii st'.commandChar = true := by rw [hs.commandChar]; exact hc
    obtain ⟨rest, h3, _, h5⟩ := parseLine_settled hc' h1 hl
    refine ⟨t, rest, h1, h3, h2, ?_⟩
    rcases h2 with h2 | h2
    · have hne : t ≠ [] := by
        rintro rfl
        exact hj h1.length
      obtain ⟨rest', k1, k2, _⟩ := parseLine_done hc' h1 hne hl
      obtain rfl : rest = rest' := h3.ltext.symm.trans k1.ltext
      exact h2.of_suffix k2
    · refine h5 ?_
      cases t with
      | nil => simp at h2
      | cons x t =>
        simp only [textOf_cons, List.head?_cons, Option.some.injEq] at h2
        rw [dropWhile_solid (by
          intro z hz
          simp only [List.head?_cons, Option.some.injEq] at hz
          subst hz
          simp [lblank, h2, isBlank])]
        simp [h2]

/-- What the program does with a makefile in which something precedes the first comment: all that precedes the comment is
one line, and all up to the end of the last comment is comments.  So a comment behind an assignment or a rule on the first
line has no effect, but a comment on a later line makes the lines before it part of the value, or loses them. -/
theorem C69_first_line_exact (fs : Fs) {text name : Str} {st : St} {m1 m : MakeState} (ht : AsciiS text) {rest : List LChar}
    (hc : TrailedDoes st.commandChar ⟨st.vars, st.ruleTable, [], none⟩
      (locate (.source 1 1 (st.names.internFile name).1) text) rest m1)
    (hch : isAscii st.commandChar = true) (hw : st.WF) (hk : RulesKnown st.db st.names)
    (hm : Makes st.commandChar NoSwitch m1 rest m) :
    ∃ st', FileGives fs name text st st' ∧ st'.vars = m.vars ∧ st'.ruleTable = m.rules := by
  obtain ⟨p', st', h1, h2, _⟩ := file_trailed fs ht hc hch hw hk hm
  exact ⟨st', h1, h2.vars, h2.rules⟩

/-- A line `x=1`. -/
private theorem assign_line (n : Nat) {rest : Str} {m : MakeState} (hb : AllTaken m.branches) :
    LineMeans '\t' NoSwitch m (locate (at_ n 1) ("x=1".toList ++ '\n' :: rest)) (locate (at_ (n + 1) 1) rest)
      { m.close with vars := m.vars.set ['x'] .recursive (Expr.text [('1', at_ n 3)]) } :=
  .assign hb (.inr (by rw [textOf_locate]; simp))
      (logical_locate (line := "x=1".toList) (rest := rest) (by decide) (by simp) (by decide))
      (assignText_locate (name := ['x']) (gap := []) (op := ['=']) (gap' := []) (value := ['1'])
        (by unfold NameChar; decide) (by simp) .recursive (by simp) (by simp))
      (not_condLike_locate (by simp) (by unfold condWords; decide)) (reads_text (free_locate (by decide)))
      (reads_text (free_locate (by decide))) (by simp) (.recursive (denotes_locate (by decide)) .nil)

/-- A comment, the assignment `x=1` and another comment: the assignment is lost. -/
theorem C69_refuted : ¬ C69_full := by
  intro h
  have hu : Uncommented (locate (at_ 1 1) "#\nx=1\n#\n".toList) (locate (at_ 2 1) "x=1\n".toList) :=
    .comment (blanks := []) (t := [('\n', at_ 1 2)] ++ locate (at_ 2 1) "x=1\n#\n".toList) (by unfold Blanks; simp)
      (.stop [] _ _ (by unfold Free; simp) rfl)
      (.line (l := [('x', at_ 2 1), ('=', at_ 2 2), ('1', at_ 2 3)]) (t := locate (at_ 3 1) "#\n".toList) (u := [])
        (by unfold Free; simp) (by unfold Free; simp)
        (.comment (blanks := []) (t := [('\n', at_ 3 2)]) (by unfold Blanks; simp)
          (.stop [] _ [] (by unfold Free; simp) rfl) (.last (by unfold Free; simp) (by unfold Free; simp))))
  obtain ⟨st', ⟨N, h1⟩, h2, _⟩ := h noFs "#\nx=1\n#\n".toList "Makefile".toList _ St.init _ (by unfold AsciiS; decide) hu rfl
    St.init_wf init_known (.cons (assign_line 2 (rest := []) (by intro b hb; cases hb)) .nil)
  have hx : (match readF noFs 8 (.text "#\nx=1\n#\n".toList) "Makefile".toList St.init with
    | .ok (.ok (), st) => decide ((st.lookup ['x']).isNone)
    | _ => false) = true := by decide +kernel
  split at hx
  · rename_i st e
    have e' := (readMakefile_le (recF_le noFs (Nat.le_add_left 8 N)) _ _ _).ok e
    have h1' : readMakefile (recF noFs (N + 8)) _ _ _ = _ := h1 (N + 8) (Nat.le_add_right _ _)
    rw [h1'] at e'
    cases e'
    have hn := Option.isNone_iff_eq_none.mp (of_decide_eq_true hx)
    have := congrFun h2 ['x']
    simp [St.vars, hn, Vars.set] at this
  · cases hx

/-- A header of three comments, one of them continued and one after blanks, with an empty line among them. -/
example (fs : Fs) : ∃ st', FileGives fs "Makefile".toList "# a # b\n#\\\nx=0\n\n #\nx=1\n".toList St.init st' ∧
    st'.vars ['x'] = some (.recursive, Expr.text [('1', at_ 6 3)]) := by
  have hc : CommentLines (locate (at_ 1 1) "# a # b\n#\\\nx=0\n\n #\nx=1\n".toList) (locate (at_ 6 1) "x=1\n".toList) :=
    .more (blanks := []) (t := locate (at_ 1 2) " a # b\n#\\\nx=0\n\n #\nx=1\n".toList) (gap := [])
      (next := locate (at_ 2 1) "#\\\nx=0\n\n #\nx=1\n".toList) (by unfold Blanks; simp)
      (.stop (locate (at_ 1 2) " a # b".toList) _ _ (free_locate (by decide)) (by rw [textOf_locate]; decide)) (by simp)
      (.more (blanks := []) (t := locate (at_ 2 2) "\\\nx=0\n\n #\nx=1\n".toList) (gap := [('\n', at_ 4 1)])
        (next := locate (at_ 5 1) " #\nx=1\n".toList) (by unfold Blanks; simp)
        (.cont (locate (at_ 2 2) "\\".toList) _ (locate (at_ 3 1) "x=0\n\n #\nx=1\n".toList) _ (free_locate (by decide))
          (by rw [textOf_locate]; decide)
          (.stop (locate (at_ 3 1) "x=0".toList) _ _ (free_locate (by decide)) (by rw [textOf_locate]; decide)))
        (by simp)
        (.last (blanks := [(' ', at_ 5 1)]) (t := locate (at_ 5 3) "\nx=1\n".toList) (by unfold Blanks; simp)
          (.stop [] _ _ (by unfold Free; simp) rfl)))
  obtain ⟨st', h1, h2, _⟩ := C69_header_partial fs (text := "# a # b\n#\\\nx=0\n\n #\nx=1\n".toList) (name := "Makefile".toList)
    (st := St.init) (by unfold AsciiS; decide) hc (free_locate (by decide)) rfl St.init_wf init_known
    (.cons (assign_line 6 (rest := []) (by intro b hb; cases hb)) .nil)
  exact ⟨st', h1, by rw [h2]; rfl⟩

private theorem init_none : ∀ x, St.init.vars x = none := by
  intro x
  have : St.init.lookup x = none := rfl
  simp [St.vars, this]

private theorem swallowed_one {l : Location} {c rest : Str} (h1 : '#' ∉ c ++ '\n' :: rest) (h2 : '\n' ∉ c)
    (h3 : trailingSlashes c % 2 = 0) :
    Swallowed (('#', l) :: locate (l.after ['#']) (c ++ '\n' :: rest)) (locate ((l.after ['#']).after (c ++ ['\n'])) rest) := by
  refine .one (free_locate h1) ?_
  rw [show c ++ '\n' :: rest = (c ++ ['\n']) ++ rest by simp, locate_append, locate_append, List.append_assoc]
  exact .stop _ _ _ (free_locate h2) (by rw [textOf_locate]; exact h3)

/-- Three assignments before the last comment and one after it: the second one becomes part of the value of the first one,
and the third one, between two comments, is lost. -/
example (fs : Fs) : ∃ st', FileGives fs "Makefile".toList "y=0\nz=2\n# c\nw=3\n# d\nx=1\n".toList St.init st' ∧
    st'.vars ['y'] = some (.recursive, Expr.text (locate (at_ 1 3) "0\nz=2\n".toList)) ∧ st'.vars ['z'] = none ∧
    st'.vars ['w'] = none ∧ st'.vars ['x'] = some (.recursive, Expr.text [('1', at_ 6 3)]) := by
  have ht : Trailed (locate (at_ 1 1) "y=0\nz=2\n# c\nw=3\n# d\nx=1\n".toList) (locate (at_ 1 1) "y=0\nz=2\n".toList)
      (locate (at_ 6 1) "x=1\n".toList) :=
    .mk (blanks := []) (line := locate (at_ 1 1) "y=0\nz=2\n".toList) (u := locate (at_ 3 2) " c\nw=3\n# d\nx=1\n".toList)
      (by unfold Blanks; simp) (by intro x hx; cases hx; decide) (free_locate (by decide)) (by rw [textOf_locate]; decide)
      (.more (a := locate (at_ 3 2) " c\nw=3\n".toList) (b := locate (at_ 5 2) " d\nx=1\n".toList) (free_locate (by decide))
        (.stop (locate (at_ 5 2) " d".toList) _ _ (free_locate (by decide)) (by rw [textOf_locate]; decide)))
  obtain ⟨st', h1, h2, _⟩ := C69_first_line_exact fs (text := "y=0\nz=2\n# c\nw=3\n# d\nx=1\n".toList)
    (name := "Makefile".toList) (st := St.init) (by unfold AsciiS; decide)
    (.assign (.inl rfl) ht
      (assignText_locate (name := ['y']) (gap := []) (op := ['=']) (gap' := []) (value := "0\nz=2\n".toList)
        (by unfold NameChar; decide) (by simp) .recursive (by simp) (by simp))
      (not_condLike_locate (by simp) (by unfold condWords; decide)) (reads_text (free_locate (by decide)))
      (reads_text (free_locate (by decide))) (by simp) (.recursive (denotes_locate (by decide)) .nil))
    rfl St.init_wf init_known (.cons (assign_line 6 (rest := []) (by intro b hb; cases hb)) .nil)
  refine ⟨st', h1, ?_, ?_, ?_, ?_⟩ <;> rw [h2]
  · rfl
  · exact init_none ['z']
  · exact init_none ['w']
  · rfl

/-- A rule with a command and a comment behind it, completed by an assignment: the command is lost. -/
example (fs : Fs) : ∃ st', FileGives fs "Makefile".toList "a: b\n\tc\n# d\nx=1\n".toList St.init st' ∧
    st'.ruleTable ['a'] = some ⟨[[('b', at_ 1 4)]], [], .standard⟩ ∧
    st'.vars ['x'] = some (.recursive, Expr.text [('1', at_ 4 3)]) := by
  have ht : Trailed (locate (at_ 1 1) "a: b\n\tc\n# d\nx=1\n".toList) (locate (at_ 1 1) "a: b\n\tc\n".toList)
      (locate (at_ 4 1) "x=1\n".toList) :=
    .mk (blanks := []) (line := locate (at_ 1 1) "a: b\n\tc\n".toList) (u := locate (at_ 3 2) " d\nx=1\n".toList)
      (by unfold Blanks; simp) (by intro x hx; cases hx; decide) (free_locate (by decide)) (by rw [textOf_locate]; decide)
      (swallowed_one (l := at_ 3 1) (c := " d".toList) (rest := "x=1\n".toList) (by decide) (by decide) (by decide))
  have wa : ∀ x ∈ [('a', at_ 1 1)], WordChar x.1 := by
    intro x hx; cases List.mem_singleton.mp hx; unfold WordChar; decide
  have wb : ∀ x ∈ [('b', at_ 1 4)], WordChar x.1 := by
    intro x hx; cases List.mem_singleton.mp hx; unfold WordChar; decide
  have hd : WordList0 [(' ', at_ 1 3), ('b', at_ 1 4)] [[('b', at_ 1 4)]] :=
    .some (gap := [(' ', at_ 1 3)]) (by unfold Blanks; simp) (wordList_one (by simp) wb)
  obtain ⟨tt, k1, k2⟩ := targets_words St.init.vars.env (wordList_one (w := [('a', at_ 1 1)]) (by simp) wa)
  have key := TrailedDoes.rule (c := '\t') (m := ⟨St.init.vars, St.init.ruleTable, [], none⟩) (ts := [('a', at_ 1 1)])
    (first := locate (at_ 1 1) "a: b".toList) (tail := locate (at_ 1 5) "\n\tc\n".toList)
    (ds := [(' ', at_ 1 3), ('b', at_ 1 4)]) (after := [(' ', at_ 1 3), ('b', at_ 1 4)])
    (double := false) (command := none)
    (.inl rfl) ht rfl (.inr ⟨_, rfl⟩) (free_locate (by decide)) (by rw [textOf_locate]; decide) (by rw [textOf_locate]; decide)
    (not_condLike (by simp) (by unfold condWords; decide))
    (not_varLike (by rw [textOf_locate]; decide) (by rw [textOf_locate]; unfold varWords; decide))
    (by rintro ⟨w, hw, hp⟩; rw [textOf_locate] at hp; revert w; unfold directiveWords; decide)
    (.plain (ts := [('a', at_ 1 1)]) (ds := [(' ', at_ 1 3), ('b', at_ 1 4)]) (cs := [(':', at_ 1 2)]) rfl (by decide))
    (not_varLike (by decide) (by unfold varWords; decide)) k1
    (reads_names hd.names) (Expands.text _ _) (fileNames_of hd.names) .none
  rw [k2, wordsOf_list0 hd] at key
  obtain ⟨st', h1, h2, h3⟩ := C69_first_line_exact fs (text := "a: b\n\tc\n# d\nx=1\n".toList) (name := "Makefile".toList)
    (st := St.init) (by unfold AsciiS; decide) key rfl St.init_wf init_known
    (.cons (assign_line 4 (rest := []) (by intro b hb; cases hb)) .nil)
  refine ⟨st', h1, ?_, ?_⟩
  · rw [h3]; rfl
  · rw [h2]; rfl

/-- An empty line, a rule, a comment and an assignment: the rule is lost. -/
example (fs : Fs) : ∃ st', FileGives fs "Makefile".toList "\na: b\n# c\nx=1\n".toList St.init st' ∧
    st'.ruleTable ['a'] = none ∧ st'.vars ['x'] = some (.recursive, Expr.text [('1', at_ 4 3)]) := by
  have ht : Trailed (locate (at_ 1 1) "\na: b\n# c\nx=1\n".toList) (locate (at_ 1 1) "\na: b\n".toList)
      (locate (at_ 4 1) "x=1\n".toList) :=
    .mk (blanks := []) (line := locate (at_ 1 1) "\na: b\n".toList) (u := locate (at_ 3 2) " c\nx=1\n".toList)
      (by unfold Blanks; simp) (by intro x hx; cases hx; decide) (free_locate (by decide)) (by rw [textOf_locate]; decide)
      (swallowed_one (l := at_ 3 1) (c := " c".toList) (rest := "x=1\n".toList) (by decide) (by decide) (by decide))
  obtain ⟨st', h1, h2, h3⟩ := C69_first_line_exact fs (text := "\na: b\n# c\nx=1\n".toList) (name := "Makefile".toList)
    (st := St.init) (by unfold AsciiS; decide)
    (.empty (.inl rfl) ht (by decide)
      (not_varLike (t := locate (at_ 1 1) "\na: b\n".toList) (by rw [textOf_locate]; decide) (by rw [textOf_locate]; unfold varWords; decide)))
    rfl St.init_wf init_known (.cons (assign_line 4 (rest := []) (by intro b hb; cases hb)) .nil)
  refine ⟨st', h1, ?_, ?_⟩
  · rw [h3]; rfl
  · rw [h2]; rfl

private theorem no_assignment {l : Location} {s : Str} (h : '=' ∉ s) {name value : List LChar} {ty : AssignType} :
    ¬ AssignText (locate l s) name ty value := by
  generalize e : locate l s = line
  intro ha
  cases ha with
  | mk _ _ op _ _ _ _ _ h3 _ _ =>
    have : '=' ∈ textOf (locate l s) := by
      rw [e]
      simp only [textOf_append, List.mem_append]
      refine .inr (.inr (.inl ?_))
      generalize textOf op = o at h3
      cases h3 <;> simp
    rw [textOf_locate] at this
    exact h this

/-- A definition and a comment behind it: the whole definition becomes the name of a variable, and what follows the comment
its value. -/
example (fs : Fs) : ∃ st', FileGives fs "Makefile".toList "define x\n1\nendef\n# c\n2\nendef\n".toList St.init st' ∧
    st'.vars ['x'] = none ∧
    st'.vars "x\n1\nendef".toList = some (.recursive, Expr.text (locate (at_ 5 1) "2\n".toList)) := by
  have ht : Trailed (locate (at_ 1 1) "define x\n1\nendef\n# c\n2\nendef\n".toList)
      (locate (at_ 1 1) "define x\n1\nendef\n".toList) (locate (at_ 5 1) "2\nendef\n".toList) :=
    .mk (blanks := []) (line := locate (at_ 1 1) "define x\n1\nendef\n".toList) (u := locate (at_ 4 2) " c\n2\nendef\n".toList)
      (by unfold Blanks; simp) (by intro x hx; cases hx; decide) (free_locate (by decide)) (by rw [textOf_locate]; decide)
      (swallowed_one (l := at_ 4 1) (c := " c".toList) (rest := "2\nendef\n".toList) (by decide) (by decide) (by decide))
  have hh := DefineHead.name (env := St.init.vars.env) (kw := locate (at_ 1 1) "define".toList) (gap := locate (at_ 1 7) [' '])
    (name := locate (at_ 1 8) "x\n1\nendef\n".toList) (by rw [textOf_locate]; decide)
    (by intro y hy; exact mem_locate (q := fun c => c = ' ' ∨ c = '\t') (by decide) y hy)
    (by intro y hy; cases hy; decide)
    (fun n ty v => no_assignment (l := at_ 1 1) (s := "define x\n1\nendef\n".toList) (by decide))
    (fun n ty => no_assignment (by decide))
  rw [textOf_locate, show trim "x\n1\nendef\n".toList = "x\n1\nendef".toList by decide] at hh
  have hb : DefineBody Begins 1 (locate (at_ 5 1) "2\nendef\n".toList) (Expr.text (locate (at_ 5 1) "2\n".toList) ++ []) [] :=
    .line (line := locate (at_ 5 1) "2\n".toList) (t := locate (at_ 6 1) "endef\n".toList)
      (.feed (body := locate (at_ 5 1) ['2']) (free_locate (by decide))) (by unfold Begins; decide) (by unfold Begins; decide)
      (reads_text (free_locate (by decide)))
      (.done (line := locate (at_ 6 1) "endef\n".toList) (.feed (body := locate (at_ 6 1) "endef".toList) (free_locate (by decide)))
        ⟨['\n'], rfl, by decide⟩)
  obtain ⟨st', h1, h2, _⟩ := C69_first_line_exact fs (text := "define x\n1\nendef\n# c\n2\nendef\n".toList)
    (name := "Makefile".toList) (st := St.init) (by unfold AsciiS; decide)
    (.define (.inl rfl) ht hh hb .recursive) rfl St.init_wf init_known .nil
  refine ⟨st', h1, ?_, ?_⟩ <;> rw [h2]
  · exact init_none ['x']
  · rfl

end Hastur
