import Verif.Spec.Unsupported
import Verif.Spec.Steps
import Verif.Proofs.Unsupported
import Verif.Proofs.RuleDemo
import Verif.Proofs.DemoCond
import Verif.Props.Expr
import Verif.Props.Eval
/-
C61: constructs that are not implemented are never silently accepted.
-/
namespace Hastur

open Res Span

private def noFs : Fs := fun _ => .missing

/-! ### Function calls -/

/-- The full claim about function calls: when the text `$(f args)`, where `f` is one of the functions of GNU make other
than `eval`, is parsed, evaluating the result does not succeed.  (The claims about lines are proved in full, below.) -/
def C61_full : Prop :=
  ∀ (fs : Fs) (f args : Str) (i r : Span) (P : Block) (a : Ast) (st : St) (l : Location), f ∈ gnuFunctions → st.WF →
    Block.Mono P → i.At P (locate l ("$(".toList ++ f ++ ' ' :: args ++ [')'])) → parseAst i = .ok (.done r a) →
    ∀ n y, evalF fs n a st ≠ .ok y

/-- What the code does with a call of a function that it does not know: it takes this for a reference to a variable with
a name such as `wildcard *.c`, which expands to nothing when there is no such variable. -/
theorem C61_unknown_function (fs : Fs) {P : Block} {i : Span} {l l1 l2 : Location} {name : List LChar} {st : St}
    (hm : Block.Mono P) (hi : i.At P (('$', l) :: ('(', l1) :: (name ++ [(')', l2)]))) (hb : Balanced name)
    (hc : ¬ CallLike name) (hd : Free '$' name) (hs : ¬ IsSubst (textOf name)) (hw : st.WF)
    (hu : st.env (textOf name) = none) :
    ∃ r a N, parseAst i = .ok (.done r a) ∧
      ∀ n, N ≤ n → ∃ b st', evalF fs n a st = .ok (b, st') ∧ Block.ltext b = [] := by
  have hr : Reads (('$', l) :: ('(', l1) :: (name ++ [(')', l2)])) (.ok [.ref l (Expr.text name)]) := by
    refine .paren ?_
    rw [closing_of_balanced hb]
    exact .ref (o := .ok []) (calls_eq_none.mpr hc) (reads_text hd) .nil
  obtain ⟨r, a, h1, _, h3, h4⟩ := parseAst_at hm hi hr
  obtain ⟨N, hN⟩ := C32_expansion fs a st h4 hw [] [textOf name]
    (by rw [h3]; exact .undefined (Expands.text _ name) hs hu .nil)
  refine ⟨r, a, N, h1, fun n hn => ?_⟩
  obtain ⟨b, g1, g2⟩ := hN n hn
  exact ⟨b, _, g1, g2⟩

private theorem wildcard_at : (textBlock .synthetic "$(wildcard *.c)".toList).span.At (textBlock .synthetic "$(wildcard *.c)".toList)
    (locate .synthetic "$(wildcard *.c)".toList) := textBlock_at (by unfold AsciiS; decide)

private theorem wildcard_empty (fs : Fs) : ∃ r a N, parseAst (textBlock .synthetic "$(wildcard *.c)".toList).span = .ok (.done r a) ∧
    ∀ n, N ≤ n → ∃ b st', evalF fs n a St.init = .ok (b, st') ∧ Block.ltext b = [] := by
  refine C61_unknown_function fs (l := .synthetic) (l1 := .synthetic) (l2 := .synthetic)
    (name := locate .synthetic "wildcard *.c".toList) (textBlock_mono _ _) wildcard_at ?_ ?_ (free_locate (by decide)) ?_
    St.init_wf rfl
  · exact balanced_of (free_locate (by decide)) (free_locate (by decide))
  · rintro ⟨f, hf⟩
    cases f <;> exact absurd hf (by decide)
  · rw [textOf_locate]
    rintro ⟨a, b, c, e, _⟩
    exact absurd (show ':' ∈ "wildcard *.c".toList by rw [e]; simp) (by decide)

/-- `$(wildcard *.c)` is accepted, and expands to nothing. -/
theorem C61_refuted : ¬ C61_full := by
  intro h
  obtain ⟨r, a, N, h1, h2⟩ := wildcard_empty noFs
  obtain ⟨b, st', h3, _⟩ := h2 N (Nat.le_refl _)
  exact h noFs "wildcard".toList "*.c".toList _ r _ a St.init .synthetic (by unfold gnuFunctions; decide) St.init_wf
    (textBlock_mono .synthetic "$(wildcard *.c)".toList) wildcard_at h1 N _ h3

/-- C61 for the functions that the parser knows, `strip`, `word` and `words`: an expression that calls one of them never
gets a value, in any state and with any budget.  Missing: the other functions. -/
theorem C61_function_partial (fs : Fs) (a : Ast) (st : St) (h : CallsFunction a.flat) : ∀ n y, evalF fs n a st ≠ .ok y := by
  intro n y he
  simp only [evalF, Rec.eval] at he
  obtain ⟨z, hz, _⟩ := bind_eq_ok.mp he
  exact evalInternal_calls fs n a st h z hz

/-- The same through variables: an expression that mentions a variable, whose value calls such a function or mentions
other variables whose values do so, never gets a value.  Missing: substitution references (see
`C61_through_substitutions_partial`), and values with `$(eval ...)`, which may replace the variable in time. -/
theorem C61_through_variables_partial (fs : Fs) (a : Ast) (st : St) (x y : Str) (body : List Expr) (ha : a.WF) (hst : st.WF)
    (hna : ¬ HasEval a.flat) (hv : ∀ v p, st.db.getVariable v = some p → ¬ HasEval p.value.flat)
    (hm : Mentions st.env x a.flat) (hxy : Relation.ReflTransGen (Refers st.env) x y) (hy : st.env y = some body)
    (hc : CallsFunction body) : ∀ n z, evalF fs n a st ≠ .ok z := by
  intro n z h
  have hne : st.NoEval := fun v c hc => by
    obtain ⟨p, hp, rfl⟩ := Option.map_eq_some_iff.mp hc
    exact hv v p hp
  simp only [evalF, Rec.eval] at h
  obtain ⟨w, hw, _⟩ := bind_eq_ok.mp h
  have hdef : st.env x ≠ none := by
    rcases Relation.ReflTransGen.cases_head hxy with e | ⟨u, ⟨b, hb, _⟩, _⟩
    · rw [e, hy]; simp
    · rw [hb]; simp
  obtain ⟨m, _, hr⟩ := reached_of_mentions fs n a st w x ha hst hne hna hw hm hdef
  exact calls_not_reached fs m st x y body hst hne hxy hy hc hr

/-- The same through variables and substitution references such as `$(x:.c=.o)`.  Missing: substitution references whose
name or suffixes contain further references (see C37), and values with `$(eval ...)`. -/
theorem C61_through_substitutions_partial (fs : Fs) (a : Ast) (st : St) (x y : Str) (body : List Expr) (ha : a.WF) (hst : st.WF)
    (hna : ¬ HasEval a.flat) (hv : ∀ v p, st.db.getVariable v = some p → ¬ HasEval p.value.flat)
    (hwa : a.WholeNames) (hw : ∀ v p, st.db.getVariable v = some p → p.value.WholeNames)
    (hm : Uses st.env x a.flat) (hxy : Relation.ReflTransGen (RefersTo st.env) x y) (hy : st.env y = some body)
    (hc : CallsFunction body) : ∀ n z, evalF fs n a st ≠ .ok z := by
  intro n z h
  have hne : st.NoEval := fun v c hc => by
    obtain ⟨p, hp, rfl⟩ := Option.map_eq_some_iff.mp hc
    exact hv v p hp
  have hwn : st.WholeNames := fun v c hc => by
    obtain ⟨p, hp, rfl⟩ := Option.map_eq_some_iff.mp hc
    exact hw v p hp
  simp only [evalF, Rec.eval] at h
  obtain ⟨w, hz, _⟩ := bind_eq_ok.mp h
  have hdef : st.env x ≠ none := by
    rcases Relation.ReflTransGen.cases_head hxy with e | ⟨u, ⟨b, hb, _⟩, _⟩
    · rw [e, hy]; simp
    · rw [hb]; simp
  obtain ⟨m, _, hr⟩ := reached_of_uses fs n a st w x ha hwa hst hne hna hz hm hdef
  exact calls_not_reached_uses fs m st x y body hst hwn hne hxy hy hc hr

/-! ### Lines -/

/-- C61 for conditionals: `ifdef`, `ifndef` and `else` followed by another conditional are never accepted, not even in a
branch that is not taken. -/
theorem C61_conditional (fs : Fs) {P : Block} {i : Span} {t line rest : List LChar} {p : PState} {st : St}
    (h : AtLine P i t line rest p st) (hr : p.currentRule = none ∨ (textOf t).head? ≠ some st.commandChar)
    (hc : UnsupportedCond (line.dropWhile lblank)) : Rejects fs i p st :=
  fun _ j p' st' => parseLine_unsupportedCond fs h hr hc _ j p' st'

/-- C61 for variables with `export`, `override` or `private` in front, for `undefine`, and for the directives `export`,
`unexport`, `vpath` and `load`. -/
theorem C61_line (fs : Fs) {P : Block} {i : Span} {t line rest : List LChar} {p : PState} {st : St}
    (h : AtLine P i t line rest p st) (hr : p.currentRule = none ∨ (textOf t).head? ≠ some st.commandChar)
    (ha : p.ignoring = false) (hu : UnsupportedLine line) : Rejects fs i p st :=
  fun _ j p' st' => parseLine_unsupported fs h hr ha hu _ j p' st'

/-- C61 for target-specific variables and static pattern rules. -/
theorem C61_target (fs : Fs) {P : Block} {i : Span} {t line rest : List LChar} {p : PState} {st : St}
    (h : AtLine P i t line rest p st) (hr : p.currentRule = none ∨ (textOf t).head? ≠ some st.commandChar)
    (ha : p.ignoring = false) (hl : Physical t line rest) (hcc : (textOf line).head? ≠ some st.commandChar)
    (h1 : ¬ CondLike line) (h2 : ¬ VarLike line) (h3 : ¬ DirectiveLike line) (hu : UnsupportedTarget st.env line) :
    Rejects fs i p st :=
  fun n j p' st' => parseLine_unsupportedTarget fs h hr ha hl hcc h1 h2 h3 hu n j p' st'

/-! ### Files -/

private theorem steps_mono {fs : Fs} {r s : Rec} (h : Rec.Le r s) {i j : Span} {p p' : PState} {st st' : St}
    (hs : LineSteps fs r i p st j p' st') : LineSteps fs s i p st j p' st' := by
  induction hs with
  | nil => exact .nil
  | cons h0 h1 _ ih => exact .cons h0 ((parseLine_le h fs _ _ _).ok h1) ih

private theorem loop_stuck {fs : Fs} {r : Rec} {i j : Span} {p p' : PState} {st st' : St} (hs : LineSteps fs r i p st j p' st')
    (hj : j.length ≠ 0) (h : ∀ k q s, parseLine fs r p' st' j ≠ .ok (.done k (), q, s)) :
    ∀ m y, processLoop fs r m i p st ≠ .ok y := by
  induction hs with
  | @nil i p st =>
    intro m y hy
    cases m with
    | zero => cases hy
    | succ m =>
      unfold processLoop at hy
      rw [if_pos (by omega)] at hy
      obtain ⟨⟨o, p1, st1⟩, k1, k2⟩ := bind_eq_ok.mp hy
      cases o with
      | done k u => exact h k p1 st1 k1
      | err e => cases k2
  | @cons i j k p p1 p' st st1 st' h0 h1 _ ih =>
    intro m y hy
    cases m with
    | zero => cases hy
    | succ m =>
      unfold processLoop at hy
      rw [if_pos (by omega), h1] at hy
      exact ih hj h m y hy

/-- C61 for makefiles: a makefile in which such a line is reached, after any number of lines, is not accepted, with any
budget. -/
theorem C61_file (fs : Fs) (n : Nat) (name text : Str) (st : St) (ht : AsciiS text) {b : Block}
    (hb : fileBlock (st.names.internFile name).1 text = .ok b) {j : Span} {p : PState} {st1 : St}
    (hs : LineSteps fs (recF fs n) b.span PState.new { st with names := (st.names.internFile name).2 } j p st1)
    (hj : j.length ≠ 0) (h : Rejects fs j p st1) : ∀ m y, readF fs m (.text text) name st ≠ .ok y := by
  intro m y hy
  obtain ⟨b', h1, h2, h3, h4⟩ := fileBlock_spec (f := (st.names.internFile name).1) ht
  cases h1.symm.trans hb
  unfold readF readMakefile at hy
  simp only [h1, ok_bind] at hy
  replace hy := processF_mono (n := m + n + 1) (by omega) hy
  replace hy : processStep fs (recF fs (m + n)) b _ = .ok y := hy
  unfold processStep at hy
  rw [char_bom h4, error_orElse] at hy
  exact loop_stuck (steps_mono (recF_le fs (by omega)) hs) hj (h (m + n)) _ _ hy

/-! ### Examples -/

private theorem op_head {ty : AssignType} {op u : List LChar} (h : OpText ty (textOf op)) :
    ∃ y v, op ++ u = y :: v ∧ ¬ NameChar y.1 ∧ y.1 ≠ ' ' := by
  cases op with
  | nil => cases h
  | cons y op =>
    refine ⟨y, op ++ u, rfl, ?_⟩
    generalize e : textOf (y :: op) = s at h
    have hy : some y.1 = s.head? := by rw [← e]; rfl
    cases h <;> (rw [Option.some.inj hy]; constructor <;> (try unfold NameChar) <;> decide)

private theorem not_nameChar_blank {x : LChar} (h : x.1 = ' ' ∨ x.1 = '\t') : ¬ NameChar x.1 := by
  rcases h with h | h <;> rw [h] <;> unfold NameChar <;> decide

private theorem noAssign {name : List LChar} {x : LChar} {u : List LChar} (hn : ∀ y ∈ name, NameChar y.1)
    (hx : x.1 = ' ') (hu : ∀ y, u.head? = some y → NameChar y.1) (hne : u ≠ []) : NoAssign (name ++ x :: u) := by
  intro nm ty value h
  generalize e : name ++ x :: u = line at h
  cases h with
  | mk _ gap op gap' _ _ h1 h2 h3 h4 h5 =>
    have hxn := not_nameChar_blank (.inl hx)
    obtain ⟨z, v, e3, g1, g2⟩ := op_head (u := gap' ++ value) h3
    rw [e3] at e
    induction name generalizing nm with
    | nil =>
      cases nm with
      | cons a nm => cases e; exact hxn (h1 _ List.mem_cons_self)
      | nil =>
        cases gap with
        | nil => cases e; exact g2 hx
        | cons b gap =>
          have e := (List.cons.inj e).2
          cases gap with
          | nil => exact g1 (hu z (by rw [e]; rfl))
          | cons c gap => exact not_nameChar_blank (h2 c (by simp)) (hu c (by rw [e]; rfl))
    | cons a name ih =>
      cases nm with
      | cons b nm =>
        exact ih (fun y hy => hn y (List.mem_cons_of_mem _ hy)) nm (fun y hy => h1 y (List.mem_cons_of_mem _ hy))
          (List.cons.inj e).2
      | nil =>
        have ha := hn a List.mem_cons_self
        cases gap with
        | nil => rw [(List.cons.inj e).1] at ha; exact g1 ha
        | cons c gap =>
          rw [(List.cons.inj e).1] at ha
          exact not_nameChar_blank (h2 _ List.mem_cons_self) ha

/-- `else ifeq (a,b)` in a branch that is not taken. -/
example (fs : Fs) : Rejects fs (textBlock .synthetic "else ifeq (a,b)\n".toList).span
    { PState.new with conditionals := [⟨false, false⟩], ignoring := true } St.init := by
  refine C61_conditional fs (line := locate .synthetic "else ifeq (a,b)".toList)
    (atLine_locate (line := "else ifeq (a,b)".toList) (rest := []) (by unfold AsciiS; decide) (by decide) (by decide) (by simp)
      (by decide) rfl rfl St.init_wf) (.inl rfl) ?_
  exact .elseIf (kw := locate .synthetic "else".toList) (u := locate .synthetic " ifeq (a,b)".toList) (x := ('i', .synthetic))
    rfl (by decide) (by decide)

/-- `override x = 1` -/
example (fs : Fs) : Rejects fs (textBlock .synthetic "override x = 1\n".toList).span PState.new St.init := by
  refine C61_line fs (line := locate .synthetic "override x = 1".toList)
    (atLine_locate (line := "override x = 1".toList) (rest := []) (by unfold AsciiS; decide) (by decide) (by decide) (by simp)
      (by decide) rfl rfl St.init_wf) (.inl rfl) rfl ?_
  have ha := assignText_locate (l := .synthetic) (name := ['x']) (gap := [' ']) (op := ['=']) (gap' := [' '])
    (value := ['1']) (ty := .recursive) (by unfold NameChar; decide) (by decide) .recursive (by decide) (by simp)
  exact .var (ws := ["override".toList]) (.assign (.cons (kw := locate .synthetic "override".toList) (gap := [(' ', .synthetic)])
    (line := locate .synthetic "x = 1".toList) (by rw [textOf_locate]; decide) (by unfold Blanks; simp) (head_locate (s := "x = 1".toList) (q := fun c => ¬ (c = ' ' ∨ c = '\t')) (by simp))
    (noAssign (mem_locate (by unfold NameChar; decide)) rfl (head_locate (s := "x = 1".toList) (by unfold NameChar; simp; decide)) (by decide)) .nil) ha
    (reads_text (free_locate (by decide))) (reads_text (free_locate (by decide)))) (by simp)

/-- `undefine x`, after an empty line, in a makefile. -/
example (fs : Fs) : ∀ n y, readF fs n (.text "\nundefine x\n".toList) ['M'] St.init ≠ .ok y := by
  obtain ⟨b, h1, h2, h3, h4⟩ := fileBlock_spec (f := (St.init.names.internFile ['M']).1) (s := "\nundefine x\n".toList)
    (by unfold AsciiS; decide)
  have hw : ({ St.init with names := (St.init.names.internFile ['M']).2 } : St).WF :=
    St.init_wf.after (st' := { St.init with names := (St.init.names.internFile ['M']).2 }) rfl
      (cs := [.file ['M']]) rfl
  obtain ⟨j, h5, h6⟩ := parseLine_blank fs (recF fs 0) (p := PState.new)
    (st := { St.init with names := (St.init.names.internFile ['M']).2 }) h4
    (logical_locate (line := []) (rest := "undefine x\n".toList) (by simp) (by simp) rfl) (free_locate (by decide)) rfl rfl (.inl rfl)
  have hl := h5.length
  refine C61_file fs 0 _ _ St.init (by unfold AsciiS; decide) h1 (.cons (by rw [h4.length]; simp [locate]) h6 .nil)
    (by rw [hl]; simp [locate]) (C61_line fs ⟨h2, h3, h5, logical_locate (line := "undefine x".toList) (rest := []) (by decide)
      (by decide) (by decide), free_locate (by decide), rfl, rfl, hw⟩ (.inl rfl) rfl ?_)
  refine .var (ws := ["undefine".toList]) (.undefine (kw := locate _ "undefine".toList) (u := locate _ " x".toList) .nil ?_ rfl)
    (by simp)
  exact noAssign (mem_locate (by unfold NameChar; decide)) rfl (head_locate (s := ['x']) (by unfold NameChar; simp; decide))
    (by decide)

/-- `vpath %.c src` -/
example (fs : Fs) : Rejects fs (textBlock .synthetic "vpath %.c src\n".toList).span PState.new St.init := by
  refine C61_line fs (line := locate .synthetic "vpath %.c src".toList)
    (atLine_locate (line := "vpath %.c src".toList) (rest := []) (by unfold AsciiS; decide) (by decide) (by decide) (by simp)
      (by decide) rfl rfl St.init_wf) (.inl rfl) rfl ?_
  exact .directive (kw := locate .synthetic "vpath".toList) (u := locate .synthetic " %.c src".toList)
    (not_varLike (by decide) (by unfold varWords; decide)) (by rw [textOf_locate]; decide)

private theorem target_a (env : Env) : TargetsExpand env (locate .synthetic ['a']) (locate .synthetic ['a']) [] := by
  have wa : WordChar 'a' := by unfold WordChar; decide
  have := TargetsExpand.last (env := env) (w := [('a', .synthetic)]) (gap := []) (t := [('a', .synthetic)])
    (es := Expr.text [('a', .synthetic)]) (vs := []) (.char wa .nil) (by simp) (by intro x hx; cases hx)
    (reads_text (by unfold Free; simp)) (Expands.text _ _) (by
      intro x hx
      cases List.mem_singleton.mp hx
      exact .inl wa) (by simp)
  exact this

/-- `a: %.o: %.c` -/
example (fs : Fs) : Rejects fs (textBlock .synthetic "a: %.o: %.c\n".toList).span PState.new St.init := by
  refine C61_target fs (line := locate .synthetic "a: %.o: %.c".toList)
    (atLine_locate (line := "a: %.o: %.c".toList) (rest := []) (by unfold AsciiS; decide) (by decide) (by decide) (by simp)
      (by decide) rfl rfl St.init_wf) (.inl rfl) rfl (physical_locate (by decide) (by simp) (by decide))
    (by rw [textOf_locate]; decide) (not_condLike (by simp) (by unfold condWords; decide))
    (not_varLike (by rw [textOf_locate]; decide) (by rw [textOf_locate]; unfold varWords; decide))
    (by rintro ⟨w, hw, hp⟩; rw [textOf_locate] at hp; revert w; unfold directiveWords; decide) ?_
  exact .pattern (ts := locate .synthetic ['a']) (cs := [(':', .synthetic)]) (ds := locate .synthetic " %.o: %.c".toList)
    (dt := locate .synthetic " %.o: %.c".toList) (double := false) (target_a _) rfl (by decide)
    (mem_locate (q := fun c => c ∉ [';', '#', '\\']) (by decide))
    (not_varLike (by decide) (by unfold varWords; decide)) (reads_text (free_locate (by decide))) (Expands.text _ _)
    (by decide) (mem_locate (q := fun c => c ∉ [';', '\\']) (by decide))

/-- `a: x=1` -/
example (fs : Fs) : Rejects fs (textBlock .synthetic "a: x=1\n".toList).span PState.new St.init := by
  have ha := assignText_locate (l := .synthetic) (name := ['x']) (gap := []) (op := ['=']) (gap' := [])
    (value := ['1']) (ty := .recursive) (by unfold NameChar; decide) (by decide) .recursive (by decide) (by simp)
  refine C61_target fs (line := locate .synthetic "a: x=1".toList)
    (atLine_locate (line := "a: x=1".toList) (rest := []) (by unfold AsciiS; decide) (by decide) (by decide) (by simp)
      (by decide) rfl rfl St.init_wf) (.inl rfl) rfl (physical_locate (by decide) (by simp) (by decide))
    (by rw [textOf_locate]; decide) (not_condLike (by simp) (by unfold condWords; decide)) ?_
    (by rintro ⟨w, hw, hp⟩; rw [textOf_locate] at hp; revert w; unfold directiveWords; decide) ?_
  · intro h
    generalize e : locate Location.synthetic "a: x=1".toList = line at h
    have e' : textOf line = "a: x=1".toList := by rw [← e, textOf_locate]
    cases h with
    | @assign _ nm value _ h =>
      cases h with
      | mk _ gap op gap' _ _ h1 h2 h3 h4 h5 =>
        simp only [textOf_append] at e'
        have hop : textOf op ++ (textOf gap' ++ textOf value) = ": x=1".toList := by
          match nm, gap, h1, h2, e' with
          | [], [], _, _, e' =>
            obtain ⟨y, v, g1, g2, _⟩ := op_head (u := []) h3
            rw [List.append_nil] at g1
            rw [g1] at e'
            have : y.1 = 'a' := (List.cons.inj e').1
            exact absurd (by rw [this]; unfold NameChar; decide) g2
          | [], x :: gap, _, h2, e' =>
            have : x.1 = 'a' := (List.cons.inj e').1
            have := h2 x List.mem_cons_self
            simp_all
          | [x], [], _, _, e' => exact (List.cons.inj e').2
          | [x], y :: gap, _, h2, e' =>
            have : y.1 = ':' := (List.cons.inj (List.cons.inj e').2).1
            have := h2 y List.mem_cons_self
            simp_all
          | x :: y :: nm, _, h1, _, e' =>
            have : y.1 = ':' := (List.cons.inj (List.cons.inj e').2).1
            have := (h1 y (by simp)).2.1
            simp_all
        generalize textOf op = o at hop h3
        cases h3 <;> exact absurd hop (by intro h; injection h with a b; first | exact absurd a (by decide) | (injection b with a b; exact absurd a (by decide)))
    | define h => rw [e'] at h; revert h; decide
    | undefine h => rw [e'] at h; revert h; decide
    | @modifier kw gap u h =>
      simp only [textOf_append] at e'
      cases hk : textOf kw with
      | nil => rw [hk] at h; revert h; decide
      | cons c w =>
        rw [hk] at e' h
        rw [(List.cons.inj e').1] at h
        simp only [List.map_cons, List.mem_cons, List.not_mem_nil, or_false] at h
        rcases h with h | h | h <;> exact absurd (List.cons.inj h).1 (by decide)
  · exact .var (ts := locate .synthetic ['a']) (cs := [(':', .synthetic)]) (ds := locate .synthetic " x=1".toList)
      (double := false) (target_a _) rfl (by decide)
      (mem_locate (q := fun c => c ∉ [';', '#', '\\']) (by decide))
      (.assign .nil ha (reads_text (free_locate (by decide))) (reads_text (free_locate (by decide))))

private abbrev txt (c : Char) : Ast := .constant .synthetic ⟨.synthetic, [c]⟩

/-- `x = $(strip b)` and `y = a$(x)`. -/
private def demo : St :=
  (St.init.define ['x'] (.strip .synthetic (txt 'b'))).define ['y'] (.concat .synthetic [txt 'a', .varRef .synthetic (txt 'x')])

/-- `$(y)` has no value. -/
example (fs : Fs) : ∀ n z, evalF fs n (.varRef .synthetic (txt 'y')) demo ≠ .ok z := by
  obtain ⟨h1, e1⟩ := St.init_wf.define (s := ['x']) (a := .strip .synthetic (txt 'b')) (f := .recursive)
    (by show AsciiS _; unfold AsciiS; decide)
  obtain ⟨h2, e2⟩ := h1.define (s := ['y']) (a := .concat .synthetic [txt 'a', .varRef .synthetic (txt 'x')]) (f := .recursive)
    ⟨(by show AsciiS _; unfold AsciiS; decide), (by show AsciiS _; unfold AsciiS; decide), trivial⟩
  have hx : demo.env ['x'] = some (Ast.strip .synthetic (txt 'b')).flat := (e2 _).trans (e1 _)
  have hy : demo.env ['y'] = some (Ast.concat .synthetic [txt 'a', .varRef .synthetic (txt 'x')]).flat := e2 _
  have tx : ∀ s : Str, Expands demo.env (Expr.text (locate .synthetic s)) (locate .synthetic s) [] :=
    fun s => Expands.text _ _
  have t : ∀ c, ¬ HasEval (txt c).flat := fun c => not_hasEval_text
  have n : ¬ HasEval [] := not_hasEval_text (t := [])
  refine C61_through_variables_partial fs _ demo ['y'] ['x'] _ (by show AsciiS _; unfold AsciiS; decide) h2
    (not_hasEval_ref (t _)) ?_ (.ref (List.mem_singleton.mpr rfl) (tx ['y']) not_isSubst_single rfl)
    (.single ⟨_, hy, ?_⟩) hx (.strip (List.mem_singleton.mpr rfl))
  · intro v p hp
    have h0 : ∀ (w : VariableName), demo.db.getVariable w =
        if w = ⟨1⟩ then some ⟨.concat .synthetic [txt 'a', .varRef .synthetic (txt 'x')], .recursive, .file⟩ else
        if w = ⟨0⟩ then some ⟨.strip .synthetic (txt 'b'), .recursive, .file⟩ else none := by
      intro w
      refine (AMap.get_insert _ _ _ _).trans ?_
      congr 1
      exact AMap.get_insert _ _ _ _
    rw [h0] at hp
    split at hp
    · cases hp; exact not_hasEval_append (t _) (not_hasEval_append (not_hasEval_ref (t _)) n)
    · split at hp
      · cases hp
        intro h
        cases h with
        | eval h => cases List.mem_singleton.mp h
        | ref h => cases List.mem_singleton.mp h
        | strip h h' => cases List.mem_singleton.mp h; exact t _ h'
        | index h => cases List.mem_singleton.mp h
        | word h => cases List.mem_singleton.mp h
        | words h => cases List.mem_singleton.mp h
      · cases hp
  · exact .ref (l := .synthetic) (List.mem_append_right _ (List.mem_append_left _ (List.mem_singleton.mpr rfl))) (tx ['x'])
      not_isSubst_single rfl

/-- `x = $(strip b)` and `y = a$(x:c=d)`. -/
private def demoSubst : St :=
  (St.init.define ['x'] (.strip .synthetic (txt 'b'))).define ['y']
    (.concat .synthetic [txt 'a', .varRef .synthetic (.constant .synthetic ⟨.synthetic, "x:c=d".toList⟩)])

/-- `$(y)` has no value. -/
example (fs : Fs) : ∀ n z, evalF fs n (.varRef .synthetic (txt 'y')) demoSubst ≠ .ok z := by
  obtain ⟨h1, e1⟩ := St.init_wf.define (s := ['x']) (a := .strip .synthetic (txt 'b')) (f := .recursive)
    (by show AsciiS _; unfold AsciiS; decide)
  obtain ⟨h2, e2⟩ := h1.define (s := ['y'])
    (a := .concat .synthetic [txt 'a', .varRef .synthetic (.constant .synthetic ⟨.synthetic, "x:c=d".toList⟩)]) (f := .recursive)
    ⟨(by show AsciiS _; unfold AsciiS; decide), (by show AsciiS _; unfold AsciiS; decide), trivial⟩
  have hx : demoSubst.env ['x'] = some (Ast.strip .synthetic (txt 'b')).flat := (e2 _).trans (e1 _)
  have hy : demoSubst.env ['y'] = some (Ast.concat .synthetic
      [txt 'a', .varRef .synthetic (.constant .synthetic ⟨.synthetic, "x:c=d".toList⟩)]).flat := e2 _
  have t : ∀ c, ¬ HasEval (txt c).flat := fun c => not_hasEval_text
  have n : ¬ HasEval [] := not_hasEval_text (t := [])
  have h0 : ∀ (w : VariableName) p, demoSubst.db.getVariable w = some p →
      p.value = .concat .synthetic [txt 'a', .varRef .synthetic (.constant .synthetic ⟨.synthetic, "x:c=d".toList⟩)] ∨
      p.value = .strip .synthetic (txt 'b') := by
    intro w p hp
    have h0 : demoSubst.db.getVariable w =
        if w = ⟨1⟩ then some ⟨.concat .synthetic [txt 'a', .varRef .synthetic (.constant .synthetic ⟨.synthetic, "x:c=d".toList⟩)],
          .recursive, .file⟩ else
        if w = ⟨0⟩ then some ⟨.strip .synthetic (txt 'b'), .recursive, .file⟩ else none := by
      refine (AMap.get_insert _ _ _ _).trans ?_
      congr 1
      exact AMap.get_insert _ _ _ _
    rw [h0] at hp
    split at hp
    · cases hp; exact .inl rfl
    · split at hp
      · cases hp; exact .inr rfl
      · cases hp
  refine C61_through_substitutions_partial fs _ demoSubst ['y'] ['x'] _ (by show AsciiS _; unfold AsciiS; decide) h2
    (not_hasEval_ref (t _)) ?_ ⟨trivial, fun t _ _ => ⟨_, _, rfl⟩⟩ ?_
    (.ref (List.mem_singleton.mpr rfl) (Expands.text _ (locate .synthetic ['y'])) not_isSubst_single rfl)
    (.single ⟨_, hy, ?_⟩) hx (.strip (List.mem_singleton.mpr rfl))
  · intro v p hp
    rcases h0 v p hp with e | e <;> rw [e]
    · exact not_hasEval_append (t _) (not_hasEval_append (not_hasEval_ref not_hasEval_text) n)
    · intro h
      cases h with
      | eval h => cases List.mem_singleton.mp h
      | ref h => cases List.mem_singleton.mp h
      | strip h h' => cases List.mem_singleton.mp h; exact t _ h'
      | index h => cases List.mem_singleton.mp h
      | word h => cases List.mem_singleton.mp h
      | words h => cases List.mem_singleton.mp h
  · intro v p hp
    rcases h0 v p hp with e | e <;> rw [e]
    · exact ⟨trivial, ⟨trivial, fun t _ _ => ⟨_, _, rfl⟩⟩, trivial⟩
    · trivial
  · exact .subst (l := .synthetic) (t := locate .synthetic "x:c=d".toList) (k := ['c']) (r := ['d'])
      (List.mem_append_right _ (List.mem_append_left _ (List.mem_singleton.mpr rfl))) (by rw [textOf_locate]; rfl)
      (by decide) (by decide)

end Hastur
