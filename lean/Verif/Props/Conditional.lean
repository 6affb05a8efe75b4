import Verif.Proofs.DemoCond
import Verif.Proofs.Comment
/-
C41, C42, C43: conditionals.
-/
namespace Hastur

open Res

private def noFs : Fs := fun _ => .missing

/-- Read a makefile in a fresh engine: is the variable defined, and what does it expand to? -/
private def runVar (n : Nat) (s v : String) : Res (Option Str) := do
  let (_, st) ← readF noFs n (.text s.toList) "Makefile".toList St.init
  match st.names.variableName v.toList with
  | none => return none
  | some v => do
    let (x, _) ← expandF noFs n v st
    return x

/-! ### C41 -/

/-- The full claim: reading a file of assignments and conditionals, nested in any way, carries out the assignments for
which all open conditionals are in their taken branch, and no others (see `CondRun`). -/
def C41_full : Prop :=
  ∀ (fs : Fs) (text name : Str) (st : St) (l : List MLine) (v : Vars) (bs : List Branch) (body : List LChar),
    AsciiS text → Headed (locate (.source 1 1 (st.names.internFile name).1) text) body → isAscii st.commandChar = true → st.WF → MakeText body l →
    CondRun (fun _ _ => True) st.vars [] l v bs → ∃ st', FileGives fs name text st st' ∧ st'.vars = v

/-- C41, for files in which no `endif` turns processing on again: each conditional is closed either in its taken branch, or
while another open one is in its branch not taken. -/
theorem C41_selects_lines_partial (fs : Fs) {text name : Str} {st : St} {l : List MLine} {v : Vars} {bs : List Branch}
    (ht : AsciiS text) {body : List LChar}
    (hc : Headed (locate (.source 1 1 (st.names.internFile name).1) text) body) (hch : isAscii st.commandChar = true) (hw : st.WF)
    (hl : MakeText body l) (hv : CondRun NoSwitch st.vars [] l v bs) :
    ∃ st', FileGives fs name text st st' ∧ st'.vars = v ∧ st'.db.rules = st.db.rules ∧
      st'.db.targetVariables = st.db.targetVariables ∧ st'.WF := by
  obtain ⟨P, i, h1, h2, h3, h4⟩ := read_of_proc (fs := fs) (name := name) (st := st) ht
  have hcs : ({ st with names := (st.names.internFile name).2 } : St).names = st.names.after [.file name] := rfl
  have hw' : St.WF { st with names := (st.names.internFile name).2 } := hw.after rfl hcs
  have hlk : St.lookup { st with names := (st.names.internFile name).2 } = st.lookup := hw.lookup_after rfl hcs
  have hvars : St.vars { st with names := (st.names.internFile name).2 } = st.vars := by
    unfold St.vars; rw [hlk]
  obtain ⟨j, hj, hp⟩ := hc.proc h3
  obtain ⟨p', st', g1, _, _, _, g5, g6, g7, g8, _⟩ := proc_conds fs h1 h2 hl (p := PState.new) (bs := [])
    (st := { st with names := (st.names.internFile name).2 }) hj hc.free rfl rfl rfl (by simp [PState.new, AllTaken])
    hch hw' (by rw [hvars]; exact hv)
  exact ⟨st', h4 _ _ (hp _ _ g1), g6, g7, g8, g5⟩

/-- C41: an `ifeq` or `ifneq` line opens one more conditional, in its taken branch if the expansions agree (or do not
agree), up to blanks around them.  From then on lines are ignored if some open conditional is in its branch not taken. -/
theorem C41_if (fs : Fs) {P : Block} {i : Span} {t line rest : List LChar} {p : PState} {st : St} {inverted : Bool}
    {as bs : List Expr} (h : AtLine P i t line rest p st)
    (hr : p.currentRule = none ∨ (textOf t).head? ≠ some st.commandChar)
    (hc : CondText (line.dropWhile lblank) (.test inverted as bs)) {x y : List LChar} {xs ys : List Str}
    (h1 : Expands st.env as x xs) (h2 : Expands st.env bs y ys) :
    ∃ p' st', LineGives fs P i p st rest p' st' ∧ st'.db = st.db ∧ p'.currentRule = p.currentRule ∧
      p'.conditionals = p.conditionals ++ [⟨xor (decide (trim (textOf x) = trim (textOf y))) inverted, false⟩] ∧
      (p'.ignoring = true ↔ ∃ c ∈ p'.conditionals, c.executing = false) := by
  refine ⟨_, _, parseLine_test fs h hr hc h1 h2, rfl, rfl, ?_, ?_⟩
  · simp only [PState.updateIgnoring]
    congr
    by_cases e : trim (textOf x) = trim (textOf y) <;> cases inverted <;> simp [e]
  · simp [PState.updateIgnoring]

/-- C41: `else` flips the innermost conditional, if it has not had an `else` yet. -/
theorem C41_else (fs : Fs) {P : Block} {i : Span} {t line rest : List LChar} {p : PState} {st : St}
    (h : AtLine P i t line rest p st) (hr : p.currentRule = none ∨ (textOf t).head? ≠ some st.commandChar)
    (hc : CondText (line.dropWhile lblank) .else_) {cs : List CondState} {e : Bool}
    (hp : p.conditionals = cs ++ [⟨e, false⟩]) :
    ∃ p', LineGives fs P i p st rest p' st ∧ p'.currentRule = p.currentRule ∧ p'.conditionals = cs ++ [⟨!e, true⟩] ∧
      (p'.ignoring = true ↔ ∃ c ∈ p'.conditionals, c.executing = false) :=
  ⟨_, parseLine_else fs h hr hc hp, rfl, rfl, by simp [PState.updateIgnoring]⟩

/-- C41: a second `else` is an error, and changes nothing. -/
theorem C41_second_else (fs : Fs) {P : Block} {i : Span} {t line rest : List LChar} {p : PState} {st : St}
    (h : AtLine P i t line rest p st) (hr : p.currentRule = none ∨ (textOf t).head? ≠ some st.commandChar)
    (hc : CondText (line.dropWhile lblank) .else_) {cs : List CondState} {e : Bool}
    (hp : p.conditionals = cs ++ [⟨e, true⟩]) (r : Rec) :
    parseLine fs r p st i = .ok (.err (.failure (.custom .tooManyElses)), p, st) := by
  obtain ⟨j, k, _, hrun, hk⟩ := parseLine_cond fs h hr hc
  subst hk
  rw [hrun]
  simp only [handleConditional, hp, List.getLast?_concat]
  rfl

/-- C41: an `else` without an open conditional is an error, and changes nothing. -/
theorem C41_unattached_else (fs : Fs) {P : Block} {i : Span} {t line rest : List LChar} {p : PState} {st : St}
    (h : AtLine P i t line rest p st) (hr : p.currentRule = none ∨ (textOf t).head? ≠ some st.commandChar)
    (hc : CondText (line.dropWhile lblank) .else_) (hp : p.conditionals = []) (r : Rec) :
    parseLine fs r p st i = .ok (.err (.failure (.custom .unattachedElse)), p, st) := by
  obtain ⟨j, k, _, hrun, hk⟩ := parseLine_cond fs h hr hc
  subst hk
  rw [hrun]
  simp only [handleConditional, hp]
  rfl

/-- C41: an `endif` without an open conditional is an error, and changes nothing. -/
theorem C41_unattached_endif (fs : Fs) {P : Block} {i : Span} {t line rest : List LChar} {p : PState} {st : St}
    (h : AtLine P i t line rest p st) (hr : p.currentRule = none ∨ (textOf t).head? ≠ some st.commandChar)
    (hc : CondText (line.dropWhile lblank) .endif) (hp : p.conditionals = []) (r : Rec) :
    parseLine fs r p st i = .ok (.err (.failure (.custom .unattachedEndIf)), p, st) := by
  obtain ⟨j, k, _, hrun, hk⟩ := parseLine_cond fs h hr hc
  subst hk
  rw [hrun]
  simp only [handleConditional, hp]
  rfl

private def dead : Str := "ifeq (a,b)\nendif\ny=2\n".toList

private theorem dead_y {st' : St} (h : FileGives noFs "Makefile".toList dead St.init st') : st'.vars ['y'] = none := by
  obtain ⟨N, hN⟩ := h
  have h1 : runVar 50 "ifeq (a,b)\nendif\ny=2\n" "y" = .ok none := by decide +kernel
  unfold runVar at h1
  obtain ⟨⟨x, st1⟩, h2, h3⟩ := Res.bind_eq_ok.mp h1
  have e1 := hN (max N 50) (by omega)
  have e2 : readF noFs (max N 50) (.text dead) "Makefile".toList St.init = .ok (x, st1) :=
    (readMakefile_le (recF_le noFs (show 50 ≤ max N 50 by omega)) _ _ _).ok h2
  rw [e1] at e2
  cases e2
  dsimp only at h3
  unfold St.vars St.lookup
  have ey : "y".toList = ['y'] := rfl
  rw [ey] at h3
  cases hv : st'.names.variableName ['y'] with
  | none => rfl
  | some v =>
    rw [hv] at h3
    obtain ⟨⟨x, st2⟩, h4, h5⟩ := Res.bind_eq_ok.mp h3
    cases h5
    unfold expandF at h4
    cases hg : st'.db.getVariable v with
    | none => simp [hg]
    | some q =>
      rw [hg] at h4
      obtain ⟨_, _, h6⟩ := Res.bind_eq_ok.mp h4
      obtain ⟨_, _, h7⟩ := Res.bind_eq_ok.mp h6
      cases h7

private theorem dead_text : ∃ l1 l2 l3 lv, MakeText (locate (.source 1 1 ⟨0⟩) dead)
    [.cond (.test false (Expr.text (locate l1 ['a'])) (Expr.text (locate l2 ['b']))), .cond .endif,
      .assign ⟨Expr.text (locate l3 ['y']), .recursive, Expr.text (locate lv ['2'])⟩] := by
  obtain ⟨lv, f3⟩ := makeText_assign (l := .source 3 1 ⟨0⟩) (line := "y=2".toList) (name := ['y']) (value := ['2'])
    (rest := []) rfl (by decide) (by simp) (by decide) (by unfold condWords; decide) (by decide) (by decide)
    (by unfold NameChar; decide) (by simp) .nil
  have f2 := makeText_cond (l := .source 2 1 ⟨0⟩) (line := "endif".toList) (rest := "y=2\n".toList) (by decide) (by simp)
    (by decide) condText_endif f3
  obtain ⟨l1, l2, f1⟩ := condText_test (l := .source 1 1 ⟨0⟩) (kw := "ifeq".toList) (a := ['a']) (b := ['b'])
    (inverted := false) (by decide) (by decide) (by decide)
  exact ⟨l1, l2, _, lv, makeText_cond (line := "ifeq (a,b)".toList) (rest := "endif\ny=2\n".toList) (by decide) (by simp)
    (by decide) f1 f2⟩

theorem C41_refuted : ¬ C41_full := by
  intro h
  obtain ⟨l1, l2, l3, lv, ht⟩ := dead_text
  have run : CondRun (fun _ _ => True) St.init.vars []
      [.cond (.test false (Expr.text (locate l1 ['a'])) (Expr.text (locate l2 ['b']))), .cond .endif,
        .assign ⟨Expr.text (locate l3 ['y']), .recursive, Expr.text (locate lv ['2'])⟩]
      (St.init.vars.set ['y'] .recursive (Expr.text (locate lv ['2']))) [] :=
    .test (Expands.text _ _) (Expands.text _ _) (.endif (bs := []) trivial
      (.assign (by intro b hb; cases hb) (.recursive (denotes_locate (by decide)) .nil) .nil))
  obtain ⟨st', h1, h2⟩ := h noFs dead "Makefile".toList St.init _ _ _ _ (by unfold AsciiS; decide) (.none (free_locate (by decide))) rfl St.init_wf ht run
  have := dead_y h1
  rw [h2] at this
  exact absurd this (by simp [Vars.set])

/-- A file with an `else`: the first branch is skipped, the second one is taken. -/
example (fs : Fs) : ∃ st' lv, FileGives fs "Makefile".toList "ifeq (a,b)\nx=1\nelse\nx=2\nendif\n".toList St.init st' ∧
    st'.vars ['x'] = some (.recursive, Expr.text (locate lv ['2'])) := by
  have f5 := makeText_cond (l := .source 5 1 ⟨0⟩) (line := "endif".toList) (rest := []) (by decide) (by simp)
    (by decide) condText_endif .nil
  obtain ⟨lv, f4⟩ := makeText_assign (l := .source 4 1 ⟨0⟩) (line := "x=2".toList) (name := ['x']) (value := ['2'])
    rfl (by decide) (by simp) (by decide) (by unfold condWords; decide) (by decide) (by decide)
    (by unfold NameChar; decide) (by simp) f5
  have f3 := makeText_cond (l := .source 3 1 ⟨0⟩) (line := "else".toList) (by decide) (by simp)
    (by decide) condText_else f4
  obtain ⟨lw, f2⟩ := makeText_assign (l := .source 2 1 ⟨0⟩) (line := "x=1".toList) (name := ['x']) (value := ['1'])
    rfl (by decide) (by simp) (by decide) (by unfold condWords; decide) (by decide) (by decide)
    (by unfold NameChar; decide) (by simp) f3
  obtain ⟨l1, l2, f1⟩ := condText_test (l := .source 1 1 ⟨0⟩) (kw := "ifeq".toList) (a := ['a']) (b := ['b'])
    (inverted := false) (by decide) (by decide) (by decide)
  have f0 := makeText_cond (line := "ifeq (a,b)".toList) (by decide) (by simp) (by decide) f1 f2
  obtain ⟨st', h1, h2, _⟩ := C41_selects_lines_partial fs (text := "ifeq (a,b)\nx=1\nelse\nx=2\nendif\n".toList)
    (name := "Makefile".toList) (st := St.init) (by unfold AsciiS; decide) (.none (free_locate (by decide))) rfl St.init_wf f0
    (.test (Expands.text _ _) (Expands.text _ _) (.skipAssign (fun h => by
        have := h _ (List.mem_append_right _ (List.mem_singleton_self _))
        simp at this
        exact absurd this (by decide))
      (.else_ (bs := []) (.assign (by
          intro b hb
          simp at hb
          subst hb
          decide) (.recursive (denotes_locate (by decide)) .nil) (.endif (bs := []) (.inl (by simp; decide)) .nil)))))
  exact ⟨st', lv, h1, by rw [h2]; rfl⟩

/-- C41 on lines: a conditional in upper case, with a reference in its argument, inside another conditional. -/
example (fs : Fs) {l : Location} : ∃ P rest p' st', LineGives fs P P.span
    { PState.new with conditionals := [⟨true, false⟩] } St.init rest p' st' ∧
    p'.conditionals = [⟨true, false⟩, ⟨false, false⟩] ∧ p'.ignoring = true := by
  have ha : AtLine _ _ _ _ _ { PState.new with conditionals := [⟨true, false⟩] } St.init := atLine_locate (l := l)
    (line := "IFNEQ (a,a)".toList) (rest := "x=1\n".toList) (by unfold AsciiS; decide) (by decide) (by decide)
    (by simp) (by decide) rfl rfl St.init_wf
  obtain ⟨l1, l2, f1⟩ := condText_test (l := l) (kw := "IFNEQ".toList) (a := ['a']) (b := ['a'])
    (inverted := true) (by decide) (by decide) (by decide)
  obtain ⟨p', st', h1, _, _, h2, h3⟩ := C41_if fs ha (.inl rfl) (by rw [dropWhile_locate (by simp)]; exact f1)
    (Expands.text _ _) (Expands.text _ _)
  have e : p'.conditionals = [⟨true, false⟩, ⟨false, false⟩] := by
    rw [h2]
    simp only [textOf_locate]
    rfl
  exact ⟨_, _, p', st', h1, e, h3.mpr ⟨⟨false, false⟩, by rw [e]; simp, rfl⟩⟩

private theorem cond_at {l : Location} {w : Str} {p : PState} (hw : w ∈ ["else".toList, "endif".toList])
    (hp : p.currentDefine = none) : AtLine (textBlock l (w ++ '\n' :: "x=1\n".toList))
      (textBlock l (w ++ '\n' :: "x=1\n".toList)).span (locate l (w ++ '\n' :: "x=1\n".toList)) (locate l w)
      (locate ((l.after w).after ['\n']) "x=1\n".toList) p St.init := by
  refine atLine_locate ?_ ?_ ?_ ?_ ?_ hp rfl St.init_wf
  all_goals
    simp only [List.mem_cons, List.not_mem_nil, or_false] at hw
    rcases hw with rfl | rfl <;> first | (unfold AsciiS; decide) | decide | simp

/-- An `else` after an `else`, and an `else` and an `endif` on their own. -/
example (fs : Fs) (r : Rec) {l : Location} :
    (∃ i, parseLine fs r { PState.new with conditionals := [⟨false, false⟩, ⟨true, true⟩] } St.init i =
      .ok (.err (.failure (.custom .tooManyElses)), { PState.new with conditionals := [⟨false, false⟩, ⟨true, true⟩] }, St.init)) ∧
    (∃ i, parseLine fs r PState.new St.init i = .ok (.err (.failure (.custom .unattachedElse)), PState.new, St.init)) ∧
    (∃ i, parseLine fs r PState.new St.init i = .ok (.err (.failure (.custom .unattachedEndIf)), PState.new, St.init)) :=
  ⟨⟨_, C41_second_else fs (cond_at (l := l) (w := "else".toList) (by decide) rfl) (.inl rfl)
      (by rw [dropWhile_locate (by simp)]; exact condText_else) (cs := [⟨false, false⟩]) rfl r⟩,
    ⟨_, C41_unattached_else fs (cond_at (l := l) (w := "else".toList) (by decide) rfl) (.inl rfl)
      (by rw [dropWhile_locate (by simp)]; exact condText_else) rfl r⟩,
    ⟨_, C41_unattached_endif fs (cond_at (l := l) (w := "endif".toList) (by decide) rfl) (.inl rfl)
      (by rw [dropWhile_locate (by simp)]; exact condText_endif) rfl r⟩⟩

/-- `else` in the outer branch that is taken. -/
example (fs : Fs) {l : Location} : ∃ P i rest p', LineGives fs P i { PState.new with conditionals := [⟨true, false⟩] } St.init
    rest p' St.init ∧ p'.conditionals = [⟨false, true⟩] ∧ p'.ignoring = true := by
  obtain ⟨p', h1, _, h2, h3⟩ := C41_else fs (cond_at (l := l) (w := "else".toList)
    (p := { PState.new with conditionals := [⟨true, false⟩] }) (by decide) rfl) (.inl rfl)
    (by rw [dropWhile_locate (by simp)]; exact condText_else) (cs := []) rfl
  exact ⟨_, _, _, p', h1, h2, h3.mpr ⟨⟨false, true⟩, by rw [h2]; simp, rfl⟩⟩

/-! ### C42 -/

/-- The full claim: after the `endif` that closes the only open conditional, lines are not ignored any more.  (The
hypothesis on `ignoring` says that the state is one in which lines are ignored just if they have to be.) -/
def C42_full : Prop :=
  ∀ (fs : Fs) (P : Block) (i : Span) (t line rest : List LChar) (p : PState) (st : St) (b : CondState),
    AtLine P i t line rest p st → (p.currentRule = none ∨ (textOf t).head? ≠ some st.commandChar) →
    CondText (line.dropWhile lblank) .endif → p.conditionals = [b] →
    (p.ignoring = true ↔ ∃ c ∈ p.conditionals, c.executing = false) →
    ∃ p' st', LineGives fs P i p st rest p' st' ∧ p'.ignoring = false

/-- C42, if the conditional is closed in its taken branch. -/
theorem C42_taken_partial (fs : Fs) {P : Block} {i : Span} {t line rest : List LChar} {p : PState} {st : St} {b : CondState}
    (h : AtLine P i t line rest p st) (hr : p.currentRule = none ∨ (textOf t).head? ≠ some st.commandChar)
    (hc : CondText (line.dropWhile lblank) .endif) (hp : p.conditionals = [b])
    (hig : p.ignoring = true ↔ ∃ c ∈ p.conditionals, c.executing = false) (hb : b.executing = true) :
    LineGives fs P i p st rest { p with conditionals := [] } st ∧ p.ignoring = false := by
  refine ⟨parseLine_endif fs h hr hc (cs := []) hp, ?_⟩
  cases e : p.ignoring with
  | false => rfl
  | true =>
    obtain ⟨c, h1, h2⟩ := hig.mp e
    rw [hp] at h1
    cases List.mem_singleton.mp h1
    rw [hb] at h2
    cases h2

/-- What happens otherwise, for every state: the conditional is closed, but lines are still ignored. -/
theorem C42_stays_ignoring (fs : Fs) {P : Block} {i : Span} {t line rest : List LChar} {p : PState} {st : St} {b : CondState}
    (h : AtLine P i t line rest p st) (hr : p.currentRule = none ∨ (textOf t).head? ≠ some st.commandChar)
    (hc : CondText (line.dropWhile lblank) .endif) (hp : p.conditionals = [b])
    (hig : p.ignoring = true ↔ ∃ c ∈ p.conditionals, c.executing = false) (hb : b.executing = false) :
    LineGives fs P i p st rest { p with conditionals := [] } st ∧ p.ignoring = true :=
  ⟨parseLine_endif fs h hr hc (cs := []) hp, hig.mpr ⟨b, by rw [hp]; simp, hb⟩⟩

private def inUntaken : PState := { PState.new with conditionals := [⟨false, false⟩], ignoring := true }

theorem C42_refuted : ¬ C42_full := by
  intro h
  have hat := cond_at (l := .synthetic) (w := "endif".toList) (p := inUntaken) (by decide) rfl
  have hc : CondText ((locate .synthetic "endif".toList).dropWhile lblank) .endif := by
    rw [dropWhile_locate (by simp)]; exact condText_endif
  have hig : inUntaken.ignoring = true ↔ ∃ c ∈ inUntaken.conditionals, c.executing = false := by simp [inUntaken]
  obtain ⟨p', st', ⟨N, j, hj, h1⟩, h2⟩ := h noFs _ _ _ _ _ _ _ ⟨false, false⟩ hat (.inl rfl) hc rfl hig
  obtain ⟨⟨M, j', _, h3⟩, _⟩ := C42_stays_ignoring noFs hat (.inl rfl) hc rfl hig rfl
  have e1 := h1 (max N M) (by omega)
  rw [h3 (max N M) (by omega)] at e1
  cases e1
  cases h2

/-- The same for a whole file: the assignment after the `endif` is not carried out. -/
theorem C42_file_refuted {st' : St} (h : FileGives noFs "Makefile".toList "ifeq (a,b)\nendif\ny=2\n".toList St.init st') :
    st'.vars ['y'] = none := dead_y h

example (fs : Fs) {l : Location} : ∃ P i rest, LineGives fs P i { PState.new with conditionals := [⟨true, true⟩] } St.init
    rest PState.new St.init :=
  ⟨_, _, _, (C42_taken_partial fs (cond_at (l := l) (w := "endif".toList)
    (p := { PState.new with conditionals := [⟨true, true⟩] }) (by decide) rfl) (.inl rfl)
    (by rw [dropWhile_locate (by simp)]; exact condText_endif) rfl (by simp [PState.new]) rfl).1⟩

/-! ### C43 -/

/-- The full claim: while lines are ignored, a line that is no conditional changes nothing. -/
def C43_full : Prop :=
  ∀ (fs : Fs) (P : Block) (i : Span) (t line rest : List LChar) (p : PState) (st : St),
    AtLine P i t line rest p st → ¬ CondLike (line.dropWhile lblank) → p.ignoring = true →
    ∃ p' st', LineGives fs P i p st rest p' st' ∧ p'.currentRule = p.currentRule ∧ st' = st

/-- C43, unless the line is a recipe line of an open rule: nothing changes, and the line is skipped without evaluating
anything, so that it may contain anything. -/
theorem C43_no_effect_partial (fs : Fs) {P : Block} {i : Span} {t line rest : List LChar} {p : PState} {st : St}
    (h : AtLine P i t line rest p st) (hr : p.currentRule = none ∨ (textOf t).head? ≠ some st.commandChar)
    (hc : ¬ CondLike (line.dropWhile lblank)) (hig : p.ignoring = true) :
    ∃ j, j.At P rest ∧ ∀ r, parseLine fs r p st i = .ok (.done j (), p, st) := parseLine_skip fs h hr hc hig

/-- C43 inside nested conditionals: if one of the open conditionals is in its branch not taken, then after the test of
another one inside it, whatever its outcome, a line that is no conditional changes nothing. -/
theorem C43_nested_partial (fs : Fs) {P : Block} {i : Span} {t line rest : List LChar} {p : PState} {st : St} {inverted : Bool}
    {as bs : List Expr} (h : AtLine P i t line rest p st)
    (hr : p.currentRule = none ∨ (textOf t).head? ≠ some st.commandChar)
    (hc : CondText (line.dropWhile lblank) (.test inverted as bs)) {x y : List LChar} {xs ys : List Str}
    (h1 : Expands st.env as x xs) (h2 : Expands st.env bs y ys) (hd : ∃ c ∈ p.conditionals, c.executing = false) :
    ∃ p' st', LineGives fs P i p st rest p' st' ∧ p'.currentRule = p.currentRule ∧
      ∀ {j line' rest'}, AtLine P j rest line' rest' p' st' →
        (p'.currentRule = none ∨ (textOf rest).head? ≠ some st'.commandChar) → ¬ CondLike (line'.dropWhile lblank) →
        ∃ k, k.At P rest' ∧ ∀ r, parseLine fs r p' st' j = .ok (.done k (), p', st') := by
  obtain ⟨p', st', g1, _, g2, g3, g4⟩ := C41_if fs h hr hc h1 h2
  refine ⟨p', st', g1, g2, fun ha hr' hc' => C43_no_effect_partial fs ha hr' hc' (g4.mpr ?_)⟩
  obtain ⟨c, hc1, hc2⟩ := hd
  exact ⟨c, by rw [g3]; exact List.mem_append_left _ hc1, hc2⟩

private def inRule : PState := ⟨[⟨false, false⟩], true, some ⟨[], [], [], .standard⟩, none⟩

/-- How many recipe lines has the open rule got? -/
private def recipeLines : Res LineOut → Option Nat
  | .ok (_, p, _) => p.currentRule.map fun r => r.recipe.length
  | _ => none

private theorem recipeLines_added (n : Nat) : ∃ res p st q, parseLine noFs (recF noFs n) inRule St.init
    (textBlock .synthetic "\techo\n".toList).span = .ok (res, p, st) ∧ p.currentRule = some q ∧ q.recipe.length = 1 := by
  have h : recipeLines (parseLine noFs (recF noFs 0) inRule St.init
    (textBlock .synthetic "\techo\n".toList).span) = some 1 := by decide +kernel
  unfold recipeLines at h
  split at h
  case h_2 => cases h
  case h_1 res p st e =>
    cases hr : p.currentRule with
    | none => rw [hr] at h; cases h
    | some q =>
      rw [hr] at h
      refine ⟨res, p, st, q, (parseLine_le (recF_le noFs (Nat.zero_le n)) noFs _ _ _).ok e, hr, ?_⟩
      simpa using h

private theorem recipe_at {p : PState} (hp : p.currentDefine = none) : AtLine (textBlock .synthetic "\techo\n".toList)
    (textBlock .synthetic "\techo\n".toList).span (locate .synthetic "\techo\n".toList)
    (locate (Location.synthetic.after ['\t']) "echo".toList) [] p St.init := by
  have hl : Logical (locate .synthetic "\techo\n".toList) (locate (Location.synthetic.after ['\t']) "echo".toList) [] := by
    have := Logical.mk [] [('\t', .synthetic)] (locate (Location.synthetic.after ['\t']) "echo".toList)
      [('\n', Location.synthetic)] [] (by simp)
      (by intro x hx; cases List.mem_singleton.mp hx; exact .inr rfl) (free_locate (by decide))
      (head_locate (q := fun c => ¬ (c = ' ' ∨ c = '\t')) (by intro c hc; cases hc; decide))
      (by rw [textOf_locate]; decide) (.inr ⟨_, rfl⟩)
    exact this
  exact ⟨by simp [textBlock], textBlock_mono _ _, textBlock_at (by unfold AsciiS; decide), hl, free_locate (by decide),
    hp, rfl, St.init_wf⟩

theorem C43_refuted : ¬ C43_full := by
  intro h
  obtain ⟨p', st', ⟨N, j, _, h1⟩, h2, _⟩ := h noFs _ _ _ _ _ inRule _ (recipe_at rfl)
    (not_condLike_locate (by simp) (by unfold condWords; decide)) rfl
  obtain ⟨res, p, st, q, e1, e2, e3⟩ := recipeLines_added N
  rw [h1 N (Nat.le_refl _)] at e1
  cases e1
  rw [h2] at e2
  cases e2
  cases e3

/-- An assignment in a branch not taken, with an open rule; and a recipe line without one. -/
example (fs : Fs) (r : Rec) {l : Location} :
    (∃ i j, parseLine fs r inRule St.init i = .ok (.done j (), inRule, St.init)) ∧
    (∃ i j, parseLine fs r inUntaken St.init i = .ok (.done j (), inUntaken, St.init)) := by
  have ha : AtLine _ _ _ _ _ inRule St.init := atLine_locate (l := l)
    (line := "x := $(x".toList) (rest := "y=1\n".toList) (by unfold AsciiS; decide) (by decide) (by decide)
    (by simp) (by decide) rfl rfl St.init_wf
  obtain ⟨j, _, h1⟩ := C43_no_effect_partial fs ha (.inr (by rw [textOf_locate]; decide))
    (not_condLike_locate (by simp) (by unfold condWords; decide)) rfl
  obtain ⟨j', _, h2⟩ := C43_no_effect_partial fs (recipe_at (p := inUntaken) rfl) (.inl rfl)
    (not_condLike_locate (by simp) (by unfold condWords; decide)) rfl
  exact ⟨⟨_, j, h1 r⟩, ⟨_, j', h2 r⟩⟩

/-- A test that succeeds, inside a branch that is not taken. -/
example (fs : Fs) {l : Location} : ∃ P rest p' st', LineGives fs P P.span inUntaken St.init rest p' st' ∧
    ∀ {j line' rest'}, AtLine P j rest line' rest' p' st' → ¬ CondLike (line'.dropWhile lblank) →
      ∃ k, k.At P rest' ∧ ∀ r, parseLine fs r p' st' j = .ok (.done k (), p', st') := by
  have ha : AtLine _ _ _ _ _ inUntaken St.init := atLine_locate (l := l)
    (line := "ifeq (a,a)".toList) (rest := "x=1\n".toList) (by unfold AsciiS; decide) (by decide) (by decide)
    (by simp) (by decide) rfl rfl St.init_wf
  obtain ⟨l1, l2, f1⟩ := condText_test (l := l) (kw := "ifeq".toList) (a := ['a']) (b := ['a'])
    (inverted := false) (by decide) (by decide) (by decide)
  obtain ⟨p', st', h1, h2, h3⟩ := C43_nested_partial fs ha (.inl rfl) (by rw [dropWhile_locate (by simp)]; exact f1)
    (Expands.text _ _) (Expands.text _ _) ⟨⟨false, false⟩, by simp [inUntaken], rfl⟩
  exact ⟨_, _, p', st', h1, fun hj hc => h3 hj (.inl h2) hc⟩

end Hastur
