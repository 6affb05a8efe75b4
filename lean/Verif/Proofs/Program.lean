import Verif.Proofs.Close
import Verif.Proofs.DemoCond
import Verif.Proofs.Define
import Verif.Proofs.Comment
import Verif.Proofs.ContinuedRule
import Verif.Proofs.EscapedRule
import Verif.Proofs.NoTargets
/-
Lemmas: whole makefiles of assignments, definitions, conditionals, rules and recipes.
-/
namespace Hastur

open Res Span

variable {P : Block} {t : List LChar} {i : Span}

/-- The open rule of the specification and of the parser. -/
inductive CurrentAs : Option OpenRule → Option ProtoRule → Prop
  | none : CurrentAs none none
  | some {o : OpenRule} {r : ProtoRule} : OpensAs o r → CurrentAs (some o) (some r)

/-- The states of parser and engine reflect the state of affairs; lines take effect if `A` holds. -/
structure ReflectsIf (A : Prop) (m : MakeState) (p : PState) (st : St) : Prop where
  vars : st.vars = m.vars
  rules : st.ruleTable = m.rules
  branches : p.conditionals = condsOf m.branches
  ignoring : p.ignoring = true ↔ ¬ A
  define : p.currentDefine = none
  current : CurrentAs m.current p.currentRule
  wf : st.WF
  known : RulesKnown st.db st.names

/-- The states of parser and engine reflect the state of affairs. -/
abbrev Reflects (m : MakeState) (p : PState) (st : St) : Prop := ReflectsIf (AllTaken m.branches) m p st

theorem ReflectsIf.active {A : Prop} {m : MakeState} {p : PState} {st : St} (h : ReflectsIf A m p st) (ha : A) :
    p.ignoring = false := by
  cases he : p.ignoring with
  | false => rfl
  | true => exact absurd ha (h.ignoring.mp he)

theorem ReflectsIf.outside {A : Prop} {m : MakeState} {p : PState} {st : St} (h : ReflectsIf A m p st) {Q : Prop} (ho : m.current = none ∨ Q) :
    p.currentRule = none ∨ Q := by
  rcases ho with ho | ho
  · have := h.current
    rw [ho] at this
    cases hp : p.currentRule with
    | none => exact .inl rfl
    | some r => rw [hp] at this; cases this
  · exact .inr ho

theorem ReflectsIf.env {A : Prop} {m : MakeState} {p : PState} {st : St} (h : ReflectsIf A m p st) : st.env = m.vars.env := by
  rw [← h.vars, St.vars_env]

theorem vars_of_lookup {st st' : St} (h : st'.lookup = st.lookup) : st'.vars = st.vars := by
  unfold St.vars; rw [h]

/-- Interning names changes nothing. -/
theorem ReflectsIf.interned {A : Prop} {m : MakeState} {p : PState} {st : St} (h : ReflectsIf A m p st) (us : List Str) :
    ReflectsIf A m p (st.interned us) := by
  obtain ⟨h1, h2, h3, h4, h5, h6, h7, h8⟩ := h
  refine ⟨by rw [h7.vars_interned, h1], ?_, h3, h4, h5, h6, h7.interned us, h8.after _⟩
  rw [← h2]
  exact h8.table_after _

/-- Completing the current rule. -/
theorem ReflectsIf.close {A : Prop} {m : MakeState} {p : PState} {st : St} (h : ReflectsIf A m p st) :
    ∃ p' st' cs, p.closeRule st = .ok (p', st') ∧ ReflectsIf A m.close p' st' ∧ st'.names = st.names.after cs ∧
      st'.db.variables = st.db.variables ∧ st'.commandChar = st.commandChar ∧ p'.currentRule = none ∧
      p'.conditionals = p.conditionals ∧ p'.ignoring = p.ignoring ∧ m.close.branches = m.branches ∧
      m.close.current = none ∧ m.close.vars = m.vars := by
  obtain ⟨h1, h2, h3, h4, h5, h6, h7, h8⟩ := h
  cases hp : p.currentRule with
  | none =>
    rw [hp] at h6
    have hm : m.current = none := by
      cases hmc : m.current with
      | none => rfl
      | some o => rw [hmc] at h6; cases h6
    have hc : m.close = m := by unfold MakeState.close; rw [hm]
    rw [hc]
    refine ⟨p, st, [], by unfold PState.closeRule; rw [hp], ⟨h1, h2, h3, h4, h5, ?_, h7, h8⟩, rfl, rfl, rfl, hp, rfl, rfl, rfl, hm, rfl⟩
    rw [hp, hm]; exact .none
  | some r =>
    rw [hp] at h6
    cases hmc : m.current with
    | none => rw [hmc] at h6; cases h6
    | some o =>
      rw [hmc] at h6
      cases h6 with
      | some ho =>
      obtain ⟨st', cs, e1, e2, e3, e4, e5, _, e7, e8⟩ := closeRule_at hp ho h7 h8
      have hc : m.close = { m with rules := m.rules.file o, current := none } := by unfold MakeState.close; rw [hmc]
      rw [hc]
      have hl : st'.lookup = st.lookup := by
        have a := lookup_variables (st := { st with names := st'.names }) (st' := st') e5 rfl
        have b : ({ st with names := st'.names } : St).lookup = st.lookup := h7.lookup_after rfl e7
        rw [a, b]
      refine ⟨_, st', cs, e1, ⟨?_, ?_, h3, h4, h5, .none, e2, e3⟩, e7, e5, e8, rfl, rfl, rfl, rfl, rfl, rfl⟩
      · show _ = m.vars
        rw [vars_of_lookup hl, h1]
      · show _ = m.rules.file o
        rw [e4, h2]

/-- Setting a variable. -/
theorem ReflectsIf.assigned {A : Prop} {m : MakeState} {p : PState} {st st' : St} {s : Str} {pv : VarParams} (h : ReflectsIf A m p st)
    (ha : Assigned st st' s pv) (hw : st'.WF) : ReflectsIf A { m with vars := st'.vars } p st' := by
  obtain ⟨h1, h2, h3, h4, h5, h6, h7, h8⟩ := h
  obtain ⟨cs, hcs⟩ := ha.names
  have hget : st'.db.getRule = st.db.getRule := by
    funext f; unfold Database.getRule; rw [ha.rules]
  have hk : RulesKnown st'.db st'.names := by
    have := h8.after cs
    rw [← hcs] at this
    exact ⟨this.nodup, fun f r hr => this.known f r (by rw [← hget]; exact hr)⟩
  refine ⟨rfl, ?_, h3, h4, h5, h6, hw, hk⟩
  have := h8.table_after cs
  rw [← hcs] at this
  rw [← h2, St.ruleTable_eq, St.ruleTable_eq, ← this]
  funext x
  unfold ruleTable
  rw [hget]

/-- What happens on one line. -/
def Steps (A : Prop) (fs : Fs) (P : Block) (i : Span) (p : PState) (st : St) (rest : List LChar) (m1 : MakeState) : Prop :=
  ∃ p1 st1, LineGives fs P i p st rest p1 st1 ∧ ReflectsIf A m1 p1 st1 ∧ st1.commandChar = st.commandChar

/-- An assignment, however the end of its line was found. -/
theorem steps_assign_of (fs : Fs) (hP : P.content.length ≤ 1) (hm : Block.Mono P) {A : Prop} {m : MakeState} {p : PState} {st : St}
    {v : Vars} {line rest name value : List LChar} {ty : AssignType} {nes ves : List Expr} {j : Span} {b : Block}
    (hR : ReflectsIf A m p st) (h : i.At P t) (hf : parseCommentFollowingWhitespace i = .ok (.err (.error .code)))
    (e1 : makefileLine i .gnu true = .ok (.done j b)) (hj : j.At P rest) (hb : LineBlock P line b)
    (hch : isAscii st.commandChar = true)
    (h1 : A) (h2 : m.current = none ∨ (textOf t).head? ≠ some st.commandChar)
    (h4 : AssignText line name ty value) (h5 : ¬ CondLike (line.dropWhile lblank)) (h6 : Reads name (.ok nes))
    (h7 : Reads value (.ok ves)) (h8 : ty = .simple → value ≠ []) (h9 : VarRun m.vars [⟨nes, ty, ves⟩] v) :
    Steps A fs P i p st rest { m.close with vars := v } := by
  obtain ⟨nt, ns, g1, g2, g3⟩ := VarRun.head (st := st) (st' := st) (by rw [hR.vars]; exact h9)
  obtain ⟨N, a, st1, ⟨us, rfl⟩, hmod, hname, hact, hrun⟩ := parseLine_assign_of fs hP hm h hf e1 hb hR.define (hR.active h1) hch
    (hR.outside h2) h4 h5 h6 h7 hR.wf g1 (fun e => ⟨h8 e, g2 e⟩)
  obtain ⟨p', st', cs, c1, c2, c3, c4, c5, c6, c7, c8, c9, c10, c11⟩ := (hR.interned us).close
  have henv : st.env = st'.env := by
    rw [c2.env, c11, hR.env]
  obtain ⟨st2, pv, k1, k2, k3, k4⟩ := handleVariableAction_at (st0 := st) c2.wf henv hmod
    (by rw [c3]; exact variableName_after (hR.wf.interned us).nodup hname) hact p'
  refine ⟨p', st2, ⟨N, j, hj, fun n hn => ?_⟩, ?_, ?_⟩
  · rw [hrun n hn, c1]
    simp only [ok_bind, k1]
    rfl
  · have := c2.assigned k3 k2
    obtain ⟨nt', ns', g1', _, g3'⟩ := VarRun.head (st := st') (st' := st2) (by rw [c2.vars, c11]; exact h9)
    rw [← henv] at g1'
    obtain ⟨rfl, _⟩ := g1.det g1'
    have hv := g3' pv k4 k3
    have e : st2.vars = v := by cases hv; rfl
    rw [e] at this
    exact this
  · rw [k3.commandChar, c5]
    rfl

theorem steps_assign (fs : Fs) (hP : P.content.length ≤ 1) (hm : Block.Mono P) {A : Prop} {m : MakeState} {p : PState} {st : St}
    {v : Vars} {line rest name value : List LChar} {ty : AssignType} {nes ves : List Expr} (hR : ReflectsIf A m p st)
    (h : i.At P t) (hf : Free '#' t) (hch : isAscii st.commandChar = true)
    (h1 : A) (h2 : m.current = none ∨ (textOf t).head? ≠ some st.commandChar) (h3 : Logical t line rest)
    (h4 : AssignText line name ty value) (h5 : ¬ CondLike (line.dropWhile lblank)) (h6 : Reads name (.ok nes))
    (h7 : Reads value (.ok ves)) (h8 : ty = .simple → value ≠ []) (h9 : VarRun m.vars [⟨nes, ty, ves⟩] v) :
    Steps A fs P i p st rest { m.close with vars := v } := by
  obtain ⟨j, b, e1, hj, hb⟩ := makefileLine_logical h h3 hf
  exact steps_assign_of fs hP hm hR h (comment_none h (free_dropWhile hf)) e1 hj hb hch h1 h2 h4 h5 h6 h7 h8 h9

/-- A line that `parse_target_line` reads as a rule. -/
theorem steps_newRule_of (fs : Fs) {A : Prop} {m : MakeState} {p : PState} {st : St} {line rest : List LChar} {tns dns : List (List LChar)}
    {double : Bool} {us : List Str} {recipe : List (List Expr)} {b : Block} {j rest' : Span} {N : Nat} {targets deps : List Block}
    {a : Option Ast} (hR : ReflectsIf A m p st) (h : i.At P t)
    (hf : parseCommentFollowingWhitespace i = .ok (.err (.error .code))) (hch : isAscii st.commandChar = true)
    (h1 : A) (h2 : m.current = none ∨ (textOf t).head? ≠ some st.commandChar)
    (e1 : makefileLine i .gnu true = .ok (.done j b)) (e2 : j.At P rest) (hat : b.span.At b line) (hne : line ≠ [])
    (hdrop : line.dropWhile lblank = line)
    (h4 : (textOf line).head? ≠ some st.commandChar) (h5 : ¬ CondLike line) (h6 : ¬ VarLike line) (h7 : ¬ DirectiveLike line)
    (f1 : Texts tns targets) (f2 : Texts dns deps) (f3 : FirstCommand recipe a)
    (f4 : ∀ n, N ≤ n → parseTargetLine (recF fs n) b.span st =
      .ok (.done rest' (.newRule targets deps double a), st.interned us)) :
    Steps A fs P i p st rest { m.close with
        current := some ⟨tns, dns, recipe, if double then .doubleColon else .standard⟩ } := by
  obtain ⟨p', st', cs, c1, c2, c3, c4, c5, c6, c7, c8, c9, c10, c11⟩ := (hR.interned us).close
  have hrecipe : ∃ rs, handleTargetAction p' (.newRule targets deps double a) = .ok { p' with
        currentRule := some ⟨targets, deps, rs, if double then .doubleColon else .standard⟩ } ∧
      rs.map Ast.flat = recipe := by
    cases f3 with
    | none => exact ⟨[], rfl, rfl⟩
    | some _ => exact ⟨[_], rfl, rfl⟩
  obtain ⟨rs, k1, k2⟩ := hrecipe
  refine ⟨{ p' with currentRule := some ⟨targets, deps, rs, if double then .doubleColon else .standard⟩ }, st',
    ⟨N, j, e2, fun n hn => ?_⟩, ?_, c5⟩
  · rw [parseLine_newRule_of fs h hf hR.define (by simpa using hR.active h1) hch (hR.outside h2) e1 hat hne hdrop h4 h5 h6 h7 (f4 n hn), c1]
    simp only [Res.bind, k1]
  · obtain ⟨d1, d2, d3, d4, d5, d6, d7, d8⟩ := c2
    exact ⟨d1, d2, d3, d4, d5, .some ⟨f1, f2, k2, rfl⟩, d7, d8⟩

theorem steps_newRule (fs : Fs) {A : Prop} {m : MakeState} {p : PState} {st : St} {line rest : List LChar} {tns dns : List (List LChar)}
    {double : Bool} {us : List Str} {recipe : List (List Expr)} {b : Block} {j rest' : Span} {N : Nat} {targets deps : List Block}
    {a : Option Ast} (hR : ReflectsIf A m p st) (h : i.At P t) (hf : Free '#' t) (hch : isAscii st.commandChar = true)
    (h1 : A) (h2 : m.current = none ∨ (textOf t).head? ≠ some st.commandChar)
    (e1 : makefileLine i .gnu true = .ok (.done j b)) (e2 : j.At P rest) (hat : b.span.At b line) (hne : line ≠ [])
    (hdrop : line.dropWhile lblank = line)
    (h4 : (textOf line).head? ≠ some st.commandChar) (h5 : ¬ CondLike line) (h6 : ¬ VarLike line) (h7 : ¬ DirectiveLike line)
    (f1 : Texts tns targets) (f2 : Texts dns deps) (f3 : FirstCommand recipe a)
    (f4 : ∀ n, N ≤ n → parseTargetLine (recF fs n) b.span st =
      .ok (.done rest' (.newRule targets deps double a), st.interned us)) :
    Steps A fs P i p st rest { m.close with
        current := some ⟨tns, dns, recipe, if double then .doubleColon else .standard⟩ } :=
  steps_newRule_of fs hR h (comment_none h (free_dropWhile hf)) hch h1 h2 e1 e2 hat hne hdrop h4 h5 h6 h7 f1 f2 f3 f4

theorem Physical.solid {line rest : List LChar} (h : Physical t line rest) : line.dropWhile lblank = line := by
  cases h with
  | mk _ _ hh _ _ => exact dropWhile_solid fun x hx => by simpa using fun hb => hh x hx (lblank_iff.mp hb)

theorem Physical.free {line rest : List LChar} (h : Physical t line rest) (hf : Free '#' t) :
    Free '\n' line ∧ trailingSlashes (textOf line) % 2 = 0 ∧ Free '#' line := by
  cases h with
  | mk _ hl _ hl' _ => exact ⟨hl, hl', (Free.append.mp (Free.append.mp hf).2).1⟩

theorem steps_noTargets (fs : Fs) {A : Prop} {m : MakeState} {p : PState} {st : St} {line rest : List LChar} (hR : ReflectsIf A m p st)
    (h : i.At P t) (hf : Free '#' t) (hch : isAscii st.commandChar = true)
    (h1 : A) (h2 : m.current = none ∨ (textOf t).head? ≠ some st.commandChar) (h3 : Physical t line rest)
    (h4 : (textOf line).head? ≠ some st.commandChar) (h5 : NoTargets line) : Steps A fs P i p st rest m.close := by
  obtain ⟨j, b, e1, e2, e3, _⟩ := makefileLine_physical h h3 hf
  obtain ⟨hnl, hsl, hcm⟩ := h3.free hf
  obtain ⟨p', st', cs, c1, c2, c3, c4, c5, c6, c7, c8, c9, c10, c11⟩ := hR.close
  refine ⟨p', st', ⟨0, j, e2, fun n hn => ?_⟩, c2, c5⟩
  obtain ⟨rest', f⟩ := parseTargetLine_noTargets (recF fs n) (st := st) e3.at hnl hsl hcm h5
  rw [parseLine_newRule fs h hf hR.define (by simpa using hR.active h1) hch (hR.outside h2) e1 e3.at h5.ne_nil h3.solid h4
    h5.not_condLike h5.not_varLike h5.not_directiveLike f, c1]
  rfl

theorem steps_rule (fs : Fs) (hP : P.content.length ≤ 1) (hm : Block.Mono P) {A : Prop} {m : MakeState} {p : PState} {st : St}
    {line rest ts after ds tt dt : List LChar} {double : Bool} {command : Option (List LChar)}
    {vs us : List Str} {des : List Expr} {recipe : List (List Expr)} (hR : ReflectsIf A m p st)
    (h : i.At P t) (hf : Free '#' t) (hch : isAscii st.commandChar = true)
    (h1 : A) (h2 : m.current = none ∨ (textOf t).head? ≠ some st.commandChar) (h3 : Physical t line rest)
    (h4 : (textOf line).head? ≠ some st.commandChar) (h5 : ¬ CondLike line) (h6 : ¬ VarLike line) (h7 : ¬ DirectiveLike line)
    (h8 : RuleText line ts double after ds command) (h9 : ¬ VarLike (after.dropWhile lblank))
    (h10 : TargetsExpand m.vars.env ts tt vs) (h11 : Reads ds (.ok des)) (h12 : Expands m.vars.env des dt us)
    (h13 : FileNames dt) (h14 : CommandReads command recipe) :
    Steps A fs P i p st rest { m.close with
        current := some ⟨wordsOf tt, wordsOf dt, recipe, if double then .doubleColon else .standard⟩ } := by
  obtain ⟨j, b, e1, e2, e3, e4⟩ := makefileLine_physical h h3 hf
  have hnl := h3.free hf
  obtain ⟨N, rest', targets, deps, a, f1, f2, f3, f4⟩ := parseTargetLine_at fs (.inl ⟨e4, e3.mono hP hm⟩) e3.at hnl.1 hnl.2.2
    hnl.2.1 h8 (by rw [hR.env]; exact h10) h9 hR.wf h11 (by rw [hR.env]; exact h12) h13 h14
  exact steps_newRule fs hR h hf hch h1 h2 e1 e2 e3.at h8.ne_nil h3.solid h4 h5 h6 h7 f1 f2 f3 f4

theorem Physical.lt {line rest : List LChar} (h : Physical t line rest) (hne : line ≠ []) : rest.length < t.length :=
  h.logical.lt (h.logical.ne_nil hne)

theorem MakeState.close_branches (m : MakeState) : m.close.branches = m.branches := by
  unfold MakeState.close; split <;> rfl

theorem MakeState.close_vars (m : MakeState) : m.close.vars = m.vars := by
  unfold MakeState.close; split <;> rfl

theorem MakeState.close_with (m : MakeState) (bs : List Branch) :
    ({ m with branches := bs } : MakeState).close = { m.close with branches := bs } := by
  obtain ⟨_, _, _, c⟩ := m
  cases c <;> rfl

/-- A command. -/
theorem steps_recipe (fs : Fs) (hP : P.content.length ≤ 1) (hm : Block.Mono P) {A : Prop} {m : MakeState} {o : OpenRule}
    {p : PState} {st : St} {line rest : List LChar} {es : List Expr} (hR : ReflectsIf A m p st) (h : i.At P t) (hf : Free '#' t)
    (hch : isAscii st.commandChar = true) (hm' : m.current = some o) (hr : RecipeText st.commandChar t line rest)
    (he : Reads line (.ok es)) :
    Steps A fs P i p st rest { m with current := some { o with recipe := o.recipe ++ [es] } } := by
  have hcur := hR.current
  rw [hm'] at hcur
  cases hp : p.currentRule with
  | none => rw [hp] at hcur; cases hcur
  | some r =>
    rw [hp] at hcur
    cases hcur with
    | some ho =>
    obtain ⟨j, a, g1, g2, g3, g4⟩ := parseLine_recipe fs (recF fs 0) hP hm h hf hch hp hr he
    refine ⟨_, st, ⟨0, j, g1, fun n _ => (parseLine_le (recF_le fs (Nat.zero_le n)) fs p st i).ok g4⟩, ?_, rfl⟩
    obtain ⟨d1, d2, d3, d4, d5, d6, d7, d8⟩ := hR
    obtain ⟨o1, o2, o3, o4⟩ := ho
    exact ⟨d1, d2, d3, d4, d5, .some ⟨o1, o2, by simp [o3, g2], o4⟩, d7, d8⟩

/-- One line that is no conditional, while lines take effect. -/
theorem line_effective (fs : Fs) (hP : P.content.length ≤ 1) (hm : Block.Mono P) {A : Prop} (hA : A)
    {ok : List Branch → Branch → Prop} {m m0 m1 : MakeState} {p : PState} {st : St} {rest : List LChar}
    (hl : LineMeans st.commandChar ok m0 t rest m1) (h0 : AllTaken m0.branches) (hb : m1.branches = m0.branches)
    (he : m = { m0 with branches := m.branches }) (hR : ReflectsIf A m p st) (h : i.At P t)
    (hf : Free '#' t) (hch : isAscii st.commandChar = true) :
    Steps A fs P i p st rest { m1 with branches := m.branches } ∧ rest <:+ t ∧ rest.length < t.length := by
  have hcur : m.current = m0.current := by rw [he]
  have hvars : m.vars = m0.vars := by rw [he]
  have hclose : m.close = { m0.close with branches := m.branches } := by rw [he, MakeState.close_with]
  cases hl with
  | blank hne hl ho =>
    rw [← he]
    rw [← hcur] at ho
    refine ⟨?_, hl.suffix, hl.lt hne⟩
    obtain ⟨j, hj, e⟩ := parseLine_blank fs (recF fs 0) h hl hf hR.define hch (hR.outside ho)
    exact ⟨p, st, ⟨0, j, hj, fun n _ => (parseLine_le (recF_le fs (Nat.zero_le n)) fs p st i).ok e⟩, hR, rfl⟩
  | assign h1 h2 h3 h4 h5 h6 h7 h8 h9 =>
    have hne := h3.ne_nil (fun e => h4.dropBlanks.2 (by rw [e]; rfl))
    rw [← hcur] at h2
    rw [← hvars] at h9
    refine ⟨?_, h3.suffix, h3.lt hne⟩
    have := steps_assign fs hP hm hR h hf hch hA h2 h3 h4 h5 h6 h7 h8 h9
    rwa [hclose] at this
  | rule h1 h2 h3 h4 h5 h6 h7 h8 h9 h10 h11 h12 h13 h14 =>
    rw [← hcur] at h2
    rw [← hvars] at h10 h12
    refine ⟨?_, h3.logical.suffix, h3.lt h8.ne_nil⟩
    have := steps_rule fs hP hm hR h hf hch hA h2 h3 h4 h5 h6 h7 h8 h9 h10 h11 h12 h13 h14
    rwa [hclose] at this
  | escapedRule h1 h2 h3 h4 h5 h6 h7 h8 h9 h10 h11 h12 =>
    rw [← hcur] at h2
    refine ⟨?_, h3.logical.suffix, h3.lt h8.ne_nil⟩
    obtain ⟨j, b, e1, e2, e3, e4⟩ := makefileLine_physical h h3 hf
    have hnl := h3.free hf
    obtain ⟨N, rest', targets, deps, a, f1, f2, f3, f4⟩ := parseTargetLine_escaped fs e4 (e3.mono hP hm) e3.at hnl.1 hnl.2.2
      hnl.2.1 h8 h10 h9 hR.wf h11 h12
    have := steps_newRule fs (us := []) hR h hf hch hA h2 e1 e2 e3.at h8.ne_nil h3.solid h4 h5 h6 h7 f1 f2 f3 f4
    rwa [hclose] at this
  | continuedRule h1 h2 h3 h4 h5 h6 h7 h8 h9 h10 h11 h12 h13 h14 =>
    rw [← hcur] at h2
    obtain ⟨hne, hdrop, j, b, e1, e2, e3, N, rest', targets, deps, f1, f2, f4⟩ := parseTargetLine_continued_words fs hP
      hm h h3 hf hR.wf h4 h5 h10 h11 h12 h13 h14
    refine ⟨?_, h3.suffix, h3.lt (h3.ne_nil hne)⟩
    have := steps_newRule fs (us := []) hR h hf hch hA h2 e1 e2 e3.at hne hdrop h6 h7 h8 h9 f1 f2 .none f4
    rwa [hclose] at this
  | noTargets h1 h2 h3 h4 h5 =>
    rw [← hcur] at h2
    refine ⟨?_, h3.logical.suffix, h3.logical.lt (h3.logical.ne_nil h5.ne_nil)⟩
    have := steps_noTargets fs hR h hf hch hA h2 h3 h4 h5
    rwa [hclose] at this
  | recipe hm' ha hr hes =>
    refine ⟨?_, hr.suffix, hr.lt⟩
    have := steps_recipe fs hP hm hR h hf hch (hcur.trans hm') hr hes
    rw [he] at this
    exact this
  | skip h1 h2 h3 h4 h5 => exact absurd h0 h1
  | test h1 h2 h3 h4 h5 => simp at hb
  | else_ h1 h2 h3 h4 => simp [h4] at hb
  | endif h1 h2 h3 h4 hok => simp [h4] at hb

theorem steps_skip (fs : Fs) (hP : P.content.length ≤ 1) (hm : Block.Mono P) {A : Prop} {m : MakeState}
    {p : PState} {st : St} {line rest : List LChar} (hR : ReflectsIf A m p st) (h : i.At P t) (hf : Free '#' t)
    (hch : isAscii st.commandChar = true) (h1 : ¬ A) (h2 : Logical t line rest)
    (h4 : m.current = none ∨ (textOf t).head? ≠ some st.commandChar) (h5 : ¬ CondLike (line.dropWhile lblank)) :
    Steps A fs P i p st rest m := by
  obtain ⟨j, hj, e⟩ := parseLine_skip fs ⟨hP, hm, h, h2, hf, hR.define, hch, hR.wf⟩ (hR.outside h4) h5 (hR.ignoring.mpr h1)
  exact ⟨p, st, ⟨0, j, hj, fun n _ => e _⟩, hR, rfl⟩

theorem steps_test_of (fs : Fs) (hP : P.content.length ≤ 1) (hm : Block.Mono P) {A A' : Prop} {m : MakeState}
    {p : PState} {st : St} {line rest x y : List LChar} {inverted : Bool} {as bs : List Expr} {xs ys : List Str}
    (hR : ReflectsIf A m p st) (h : i.At P t) (hch : isAscii st.commandChar = true)
    (hf : parseCommentFollowingWhitespace i = .ok (.err (.error .code)))
    (h2 : ∃ r b, makefileLine i .gnu true = .ok (.done r b) ∧ r.At P rest ∧ LineBlock P line b)
    (h1 : m.current = none ∨ (textOf t).head? ≠ some st.commandChar)
    (h3 : CondText (line.dropWhile lblank) (.test inverted as bs)) (h4 : Expands m.vars.env as x xs)
    (h5 : Expands m.vars.env bs y ys)
    (hA : A' ↔ AllTaken (m.branches ++ [⟨(trim (textOf x) == trim (textOf y)) != inverted, false⟩])) :
    Steps A' fs P i p st rest
      { m with branches := m.branches ++ [⟨(trim (textOf x) == trim (textOf y)) != inverted, false⟩] } := by
  rw [← hR.env] at h4 h5
  have := parseLine_test_of fs ⟨hP, hm, h, hf, h2, hR.define, hch, hR.wf⟩ (hR.outside h1) h3 h4 h5
  refine ⟨_, _, this, ?_, rfl⟩
  obtain ⟨d1, d2, d3, d4, d5, d6, d7, d8⟩ := hR.interned (xs ++ ys)
  exact ⟨d1, d2, by rw [condsOf_append, ← d3]; rfl, by rw [hA, ← condsOf_any, condsOf_append, ← d3]; rfl, d5, d6, d7, d8⟩

theorem steps_test (fs : Fs) (hP : P.content.length ≤ 1) (hm : Block.Mono P) {A A' : Prop} {m : MakeState}
    {p : PState} {st : St} {line rest x y : List LChar} {inverted : Bool} {as bs : List Expr} {xs ys : List Str}
    (hR : ReflectsIf A m p st) (h : i.At P t) (hf : Free '#' t) (hch : isAscii st.commandChar = true)
    (h1 : m.current = none ∨ (textOf t).head? ≠ some st.commandChar) (h2 : Logical t line rest)
    (h3 : CondText (line.dropWhile lblank) (.test inverted as bs)) (h4 : Expands m.vars.env as x xs)
    (h5 : Expands m.vars.env bs y ys)
    (hA : A' ↔ AllTaken (m.branches ++ [⟨(trim (textOf x) == trim (textOf y)) != inverted, false⟩])) :
    Steps A' fs P i p st rest
      { m with branches := m.branches ++ [⟨(trim (textOf x) == trim (textOf y)) != inverted, false⟩] } :=
  steps_test_of fs hP hm hR h hch (comment_none h (free_dropWhile hf)) (makefileLine_logical h h2 hf) h1 h3 h4 h5 hA

theorem steps_else (fs : Fs) (hP : P.content.length ≤ 1) (hm : Block.Mono P) {A A' : Prop} {m : MakeState}
    {p : PState} {st : St} {line rest : List LChar} {bs : List Branch} {e : Bool}
    (hR : ReflectsIf A m p st) (h : i.At P t) (hf : Free '#' t) (hch : isAscii st.commandChar = true)
    (h1 : m.current = none ∨ (textOf t).head? ≠ some st.commandChar) (h2 : Logical t line rest)
    (h3 : CondText (line.dropWhile lblank) .else_) (h4 : m.branches = bs ++ [⟨e, false⟩])
    (hA : A' ↔ AllTaken (bs ++ [⟨!e, true⟩])) :
    Steps A' fs P i p st rest { m with branches := bs ++ [⟨!e, true⟩] } := by
  have hcs := hR.branches
  rw [h4, condsOf_append] at hcs
  have := parseLine_else fs ⟨hP, hm, h, h2, hf, hR.define, hch, hR.wf⟩ (hR.outside h1) h3 hcs
  refine ⟨_, _, this, ?_, rfl⟩
  obtain ⟨d1, d2, d3, d4, d5, d6, d7, d8⟩ := hR
  exact ⟨d1, d2, by rw [condsOf_append]; rfl, by rw [hA, ← condsOf_any, condsOf_append]; rfl, d5, d6, d7, d8⟩

theorem steps_endif (fs : Fs) (hP : P.content.length ≤ 1) (hm : Block.Mono P) {A : Prop} {m : MakeState}
    {p : PState} {st : St} {line rest : List LChar} {bs : List Branch} {b : Branch}
    (hR : ReflectsIf A m p st) (h : i.At P t) (hf : Free '#' t) (hch : isAscii st.commandChar = true)
    (h1 : m.current = none ∨ (textOf t).head? ≠ some st.commandChar) (h2 : Logical t line rest)
    (h3 : CondText (line.dropWhile lblank) .endif) (h4 : m.branches = bs ++ [b]) :
    Steps A fs P i p st rest { m with branches := bs } := by
  have hcs := hR.branches
  rw [h4, condsOf_append] at hcs
  have := parseLine_endif fs ⟨hP, hm, h, h2, hf, hR.define, hch, hR.wf⟩ (hR.outside h1) h3 hcs
  refine ⟨_, _, this, ?_, rfl⟩
  obtain ⟨d1, d2, d3, d4, d5, d6, d7, d8⟩ := hR
  exact ⟨d1, d2, rfl, d4, d5, d6, d7, d8⟩

theorem Steps.congr {fs : Fs} {A B : Prop} {p : PState} {st : St} {rest : List LChar} {m : MakeState} (h : Steps A fs P i p st rest m)
    (e : A ↔ B) : Steps B fs P i p st rest m := by rwa [← propext e]

/-- An `endif` that need not turn anything on. -/
theorem NoSwitch.allTaken {bs : List Branch} {b : Branch} (h : NoSwitch bs b) : AllTaken (bs ++ [b]) ↔ AllTaken bs := by
  refine ⟨fun ha x hx => ha x (by simp [hx]), fun ha => ?_⟩
  rcases h with hb | hb
  · intro x hx
    rcases List.mem_append.mp hx with hx | hx
    · exact ha x hx
    · cases List.mem_singleton.mp hx
      exact hb
  · exact absurd ha hb

/-- One line. -/
theorem line_steps (fs : Fs) (hP : P.content.length ≤ 1) (hm : Block.Mono P) {m m1 : MakeState} {p : PState} {st : St}
    {rest : List LChar} (hl : LineMeans st.commandChar NoSwitch m t rest m1) (hR : Reflects m p st) (h : i.At P t)
    (hf : Free '#' t) (hch : isAscii st.commandChar = true) :
    Steps (AllTaken m1.branches) fs P i p st rest m1 ∧ rest <:+ t ∧ rest.length < t.length := by
  have key : AllTaken m.branches → m1.branches = m.branches → _ := fun ha hb => by
    have := line_effective fs hP hm ha hl ha hb rfl hR h hf hch
    rw [← hb] at this
    exact this
  cases hl with
  | blank hne hl ho =>
    refine ⟨?_, hl.suffix, hl.lt hne⟩
    obtain ⟨j, hj, e⟩ := parseLine_blank fs (recF fs 0) h hl hf hR.define hch (hR.outside ho)
    exact ⟨p, st, ⟨0, j, hj, fun n _ => (parseLine_le (recF_le fs (Nat.zero_le n)) fs p st i).ok e⟩, hR, rfl⟩
  | assign h1 => exact key h1 m.close_branches
  | rule h1 => exact key h1 m.close_branches
  | escapedRule h1 => exact key h1 m.close_branches
  | continuedRule h1 => exact key h1 m.close_branches
  | noTargets h1 => exact key h1 m.close_branches
  | recipe _ ha => exact key ha rfl
  | skip h1 h2 h3 h4 h5 => exact ⟨steps_skip fs hP hm hR h hf hch h1 h2 h4 h5, h2.suffix, h2.lt (h2.ne_nil h3)⟩
  | test h1 h2 h3 h4 h5 =>
    exact ⟨steps_test fs hP hm hR h hf hch h1 h2 h3 h4 h5 Iff.rfl, h2.suffix, h2.lt (h2.ne_nil h3.ne_nil)⟩
  | else_ h1 h2 h3 h4 =>
    exact ⟨steps_else fs hP hm hR h hf hch h1 h2 h3 h4 Iff.rfl, h2.suffix, h2.lt (h2.ne_nil h3.ne_nil)⟩
  | endif h1 h2 h3 h4 hok =>
    refine ⟨(steps_endif fs hP hm hR h hf hch h1 h2 h3 h4).congr ?_, h2.suffix, h2.lt (h2.ne_nil h3.ne_nil)⟩
    rw [h4]
    exact hok.allTaken

theorem DefineSets.of_stores {st st' : St} {s : Str} {ty : AssignType} {es : List Expr} {v : Vars} {pv : VarParams}
    (hs : DefineSets st.vars s ty es v) (ha : Assigned st st' s pv) (hd : DefineStores st s ty es pv) : st'.vars = v := by
  rw [ha.vars]
  cases hs with
  | recursive => cases hd; rfl
  | conditional => cases hd; rfl
  | appendNew h =>
    have h : st.lookup s = none := by simpa [St.vars] using h
    cases hd with
    | appendNew _ => rfl
    | append h' _ => rw [h] at h'; cases h'
  | append h _ =>
    cases hd with
    | appendNew h' => simp [St.vars, h'] at h
    | append h' e =>
      simp only [St.vars, h', Option.map_some, Option.some.injEq, Prod.mk.injEq] at h
      obtain ⟨rfl, rfl⟩ := h
      rw [e]

/-- A definition.  The text `u` behind its first line leads to the text `body` of its lines. -/
theorem steps_define_of (fs : Fs) {A : Prop} {m : MakeState} {p : PState} {st : St}
    {line u body rest : List LChar} {s : Str} {ty : AssignType} {es : List Expr} {v : Vars} (hR : ReflectsIf A m p st)
    (h : FoundLine P i t line u p st) (h1 : A) (h2 : m.current = none ∨ (textOf t).head? ≠ some st.commandChar)
    (hlt : u.length < t.length) (hfree : Free '#' body)
    (hskip : ∀ {j : Span}, j.At P u → ∃ k, k.At P body ∧ ∀ {p : PState} {st : St} {l : Span} {p' : PState} {st' : St},
      Many fs k p st l p' st' → Many fs j p st l p' st')
    (h4 : DefineHead m.vars.env line s ty) {fin : VariableName → Option DefineState} (h5 : Collects fs P 1 body es rest fin)
    (h6 : DefineSets m.vars s ty es v) :
    ∃ j p1 st1 x, Many fs i p st j { p1 with currentDefine := fin x } st1 ∧ j.At P rest ∧ rest <:+ body ∧ ReflectsIf A { m.close with vars := v } p1 st1 ∧
      st1.commandChar = st.commandChar := by
  rw [← hR.env] at h4
  obtain ⟨us, hus⟩ := many_define_of fs h (hR.outside h2) (hR.active h1) h4 hlt hfree hskip h5
  obtain ⟨p', st', cs, c1, c2, c3, c4, c5, c6, c7, c8, c9, c10, c11⟩ := (hR.interned us).close
  obtain ⟨j, st1, pv, x, k1, k2, k3, k4, k5, k6⟩ := hus p' st' c1 c2.wf c6 c2.define ⟨cs, c3⟩
  refine ⟨j, p', st1, x, k1, k2, k3, ?_, by rw [k5.commandChar, c5]; rfl⟩
  have := c2.assigned k5 k4
  rwa [DefineSets.of_stores (by rw [c2.vars, c11]; exact h6) k5 k6] at this

/-- A definition. -/
theorem steps_define (fs : Fs) (hP : P.content.length ≤ 1) (hm : Block.Mono P) {A : Prop} {m : MakeState} {p : PState} {st : St}
    {line body rest : List LChar} {s : Str} {ty : AssignType} {es : List Expr} {v : Vars} (hR : ReflectsIf A m p st)
    (h : i.At P t) (hf : Free '#' t) (hch : isAscii st.commandChar = true) (h1 : A)
    (h2 : m.current = none ∨ (textOf t).head? ≠ some st.commandChar) (h3 : Logical t line body)
    (h4 : DefineHead m.vars.env line s ty) (h5 : DefineBody Begins 1 body es rest) (h6 : DefineSets m.vars s ty es v) :
    ∃ j p1 st1, Many fs i p st j p1 st1 ∧ j.At P rest ∧ rest <:+ t ∧ ReflectsIf A { m.close with vars := v } p1 st1 ∧
      st1.commandChar = st.commandChar := by
  obtain ⟨j, p1, st1, _, k1, k2, k3, k4⟩ := steps_define_of fs hR
    (AtLine.found ⟨hP, hm, h, h3, hf, hR.define, hch, hR.wf⟩) h1 h2 (h3.lt (h3.ne_nil h4.dropBlanks.2.1))
    (hf.of_suffix h3.suffix) (fun hj => ⟨_, hj, id⟩) h4 (many_body fs hP hm h5) h6
  rw [PState.no_define k4.1.define] at k1
  exact ⟨j, p1, st1, k1, k2, k3.trans h3.suffix, k4⟩

/-- All lines. -/
theorem proc_makes (fs : Fs) (hP : P.content.length ≤ 1) (hm : Block.Mono P) {c : Char} {m m' : MakeState}
    (hl : Makes c NoSwitch m t m') : ∀ {i : Span} {p : PState} {st : St}, Reflects m p st → i.At P t → Free '#' t →
      st.commandChar = c → isAscii c = true →
      ∃ p' st', Proc fs i p st p' st' ∧ Reflects m' p' st' ∧ st'.commandChar = c := by
  induction hl with
  | nil => intro i p st hR h _ hc _; exact ⟨p, st, .done (by rw [h.length]; rfl), hR, hc⟩
  | cons hl _ ih =>
    intro i p st hR h hf hc ha
    subst hc
    obtain ⟨⟨p1, st1, ⟨N, j, hj, e⟩, k1, k2⟩, k3, k4⟩ := line_steps fs hP hm hl hR h hf ha
    obtain ⟨p', st', g1, g2, g3⟩ := ih k1 hj (hf.of_suffix k3) k2 ha
    exact ⟨p', st', .trans N h hj k4 e g1, g2, g3⟩
  | define h1 h2 h3 h4 h5 h6 _ ih =>
    intro i p st hR h hf hc ha
    subst hc
    obtain ⟨j, p1, st1, k1, k2, k3, k4, k5⟩ := steps_define fs hP hm hR h hf ha h1 h2 h3 h4 h5 h6
    rw [← MakeState.close_branches] at k4
    obtain ⟨p', st', g1, g2, g3⟩ := ih k4 k2 (hf.of_suffix k3) k5 ha
    exact ⟨p', st', k1.proc g1, g2, g3⟩

/-- A whole makefile. -/
theorem file_makes (fs : Fs) {text name : Str} {st : St} {v : Vars} {r : Rules} {m' : MakeState} (ht : AsciiS text)
    {body : List LChar} (hc : Headed (locate (.source 1 1 (st.names.internFile name).1) text) body)
    (hch : isAscii st.commandChar = true) (hw : st.WF) (hk : RulesKnown st.db st.names)
    (hv : st.vars = v) (hr : st.ruleTable = r)
    (hl : Makes st.commandChar NoSwitch ⟨v, r, [], none⟩ body m') :
    ∃ p' st', FileGives fs name text st st' ∧ Reflects m' p' st' ∧ st'.commandChar = st.commandChar := by
  obtain ⟨P, i, h1, h2, h3, h4⟩ := read_of_proc (fs := fs) (name := name) (st := st) ht
  have hcs : ({ st with names := (st.names.internFile name).2 } : St).names = st.names.after [.file name] := rfl
  have hlk : St.lookup { st with names := (st.names.internFile name).2 } = st.lookup := hw.lookup_after rfl hcs
  have hR : Reflects ⟨v, r, [], none⟩ PState.new { st with names := (st.names.internFile name).2 } := by
    refine ⟨by rw [vars_of_lookup hlk, hv], ?_, rfl, by simp [PState.new, AllTaken], rfl, .none, hw.after rfl hcs,
      hk.after [.file name]⟩
    rw [← hr]
    exact hk.table_after [.file name]
  obtain ⟨j, hj, hp⟩ := hc.proc h3
  obtain ⟨p', st', g1, g2, g3⟩ := proc_makes fs h1 h2 hl hR hj hc.free rfl hch
  exact ⟨p', st', h4 _ _ (hp _ _ g1), g2, g3⟩

end Hastur
