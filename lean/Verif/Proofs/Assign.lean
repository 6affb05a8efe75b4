import Verif.Spec.Makefile
import Verif.Proofs.Compose
import Verif.Proofs.EvalText
import Verif.Proofs.Eval
import Verif.Proofs.Unquote
/-
Lemmas: what an assignment line does.
-/
namespace Hastur

open Res

variable {P : Block} {t : List LChar} {i : Span}

/-! ### Reading the line -/

theorem nameStop_iff {c : Char} : nameStop c = false ↔ NameChar c := by
  unfold nameStop NameChar
  simp only [Bool.or_eq_false_iff, beq_eq_false_iff_ne, ne_eq, and_assoc]

theorem assignOperator_at {op v : List LChar} {ty : AssignType} (h : i.At P (op ++ v)) (ho : OpText ty (textOf op)) :
    ∃ r, assignOperator i = .ok (.done r ty) ∧ r.At P v := by
  have key : ∀ (w : Str), AsciiS w → textOf op = w → ∃ r q, Nom.tag w i = .ok (.done r q) ∧ r.At P v := by
    intro w hw e
    obtain ⟨r, q, h1, h2, _⟩ := (Nom.tag_at h hw).1 (by rw [textOf_append, e]; exact List.prefix_append _ _)
    refine ⟨r, q, h1, ?_⟩
    rwa [← e, textOf_length, List.drop_left] at h2
  have bad : ∀ (w : Str), AsciiS w → ¬ w <+: textOf op ++ textOf v → Nom.tag w i = .ok (.err (.error .code)) := by
    intro w hw e
    exact (Nom.tag_at h hw).2 (by rw [textOf_append]; exact e)
  unfold assignOperator
  generalize hto : textOf op = o at *
  cases ho with
  | recursive =>
    obtain ⟨r, q, h1, h2⟩ := key _ (by unfold AsciiS; decide) rfl
    exact ⟨r, by rw [show "=".toList = ['='] from rfl, h1]; rfl, h2⟩
  | simple =>
    obtain ⟨r, q, h1, h2⟩ := key _ (by unfold AsciiS; decide) rfl
    refine ⟨r, ?_, h2⟩
    rw [bad "=".toList (by unfold AsciiS; decide) (by simp), bad "::=".toList (by unfold AsciiS; decide) (by simp),
      show ":=".toList = [':', '='] from rfl, h1]
    rfl
  | posix =>
    obtain ⟨r, q, h1, h2⟩ := key _ (by unfold AsciiS; decide) rfl
    refine ⟨r, ?_, h2⟩
    rw [bad "=".toList (by unfold AsciiS; decide) (by simp), show "::=".toList = [':', ':', '='] from rfl, h1]
    rfl
  | conditional =>
    obtain ⟨r, q, h1, h2⟩ := key _ (by unfold AsciiS; decide) rfl
    refine ⟨r, ?_, h2⟩
    rw [bad "=".toList (by unfold AsciiS; decide) (by simp), bad "::=".toList (by unfold AsciiS; decide) (by simp),
      bad ":=".toList (by unfold AsciiS; decide) (by simp), show "?=".toList = ['?', '='] from rfl, h1]
    rfl
  | shell =>
    obtain ⟨r, q, h1, h2⟩ := key _ (by unfold AsciiS; decide) rfl
    refine ⟨r, ?_, h2⟩
    rw [bad "=".toList (by unfold AsciiS; decide) (by simp), bad "::=".toList (by unfold AsciiS; decide) (by simp),
      bad ":=".toList (by unfold AsciiS; decide) (by simp), bad "?=".toList (by unfold AsciiS; decide) (by simp),
      show "!=".toList = ['!', '='] from rfl, h1]
    rfl
  | append =>
    obtain ⟨r, q, h1, h2⟩ := key _ (by unfold AsciiS; decide) rfl
    refine ⟨r, ?_, h2⟩
    rw [bad "=".toList (by unfold AsciiS; decide) (by simp), bad "::=".toList (by unfold AsciiS; decide) (by simp),
      bad ":=".toList (by unfold AsciiS; decide) (by simp), bad "?=".toList (by unfold AsciiS; decide) (by simp),
      bad "!=".toList (by unfold AsciiS; decide) (by simp), show "+=".toList = ['+', '='] from rfl, h1]
    rfl

theorem opText_head {ty : AssignType} {o : Str} (h : OpText ty o) : ∃ c cs, o = c :: cs ∧ ¬ NameChar c ∧ c ≠ ' ' ∧ c ≠ '\t' := by
  cases h <;> exact ⟨_, _, rfl, by unfold NameChar; decide, by decide, by decide⟩

theorem parseAssignmentOperator_at {line name value : List LChar} {ty : AssignType} (h : i.At P line)
    (ha : AssignText line name ty value) :
    ∃ r n, parseAssignmentOperator i = .ok (.done r (n, ty)) ∧ r.At P value ∧ n.At P name := by
  obtain ⟨name, gap, op, gap', value, ty, h1, h2, h3, h4, h5⟩ := ha
  obtain ⟨c, cs, hc, hn, hb, ht⟩ := opText_head h3
  obtain ⟨x, op', rfl, rfl⟩ : ∃ x op', op = x :: op' ∧ x.1 = c := by
    cases op with
    | nil => simp at hc
    | cons x op' => exact ⟨x, op', rfl, by simpa using (List.cons.inj hc).1⟩
  have hstop : ∃ y rest, gap ++ (x :: op' ++ (gap' ++ value)) = y :: rest ∧ nameStop y.1 = true := by
    cases gap with
    | nil => exact ⟨x, _, rfl, by
        cases e : nameStop x.1 with
        | true => rfl
        | false => exact absurd (nameStop_iff.mp e) hn⟩
    | cons y gap =>
      refine ⟨y, _, rfl, ?_⟩
      rcases h2 y (by simp) with e | e <;> rw [e] <;> decide
  obtain ⟨y, rest, hy, hstop⟩ := hstop
  obtain ⟨r1, n, e1, e2, e3⟩ := Nom.takeTill_at h nameStop
  rw [List.dropWhile_append_of_pos (by intro z hz; simp [nameStop_iff.mpr (h1 z hz)])] at e2
  rw [List.takeWhile_append_of_pos (by intro z hz; simp [nameStop_iff.mpr (h1 z hz)])] at e3
  rw [hy] at e2 e3
  simp only [List.dropWhile_cons, List.takeWhile_cons, hstop, Bool.not_true, Bool.false_eq_true, if_false,
    List.append_nil] at e2 e3
  rw [← hy] at e2
  obtain ⟨r2, q2, f1, f2, _⟩ := whitespace_at e2
  rw [dropWhile_blanks h2, dropWhile_solid (by
    intro z hz
    simp only [List.cons_append, List.head?_cons, Option.some.injEq] at hz
    subst hz
    cases e : lblank x with
    | false => rfl
    | true => rcases lblank_iff.mp e with e | e <;> contradiction)] at f2
  obtain ⟨r3, g1, g2⟩ := assignOperator_at f2 h3
  obtain ⟨r4, q4, k1, k2, _⟩ := whitespace_at g2
  rw [dropWhile_blanks h4, dropWhile_solid (by
    intro z hz
    cases e : lblank z with
    | false => rfl
    | true => exact absurd (lblank_iff.mp e) (h5 z hz))] at k2
  refine ⟨r4, n, ?_, k2, e3⟩
  unfold parseAssignmentOperator
  rw [e1, done_andThen, f1, done_andThen, g1, done_andThen, k1, done_andThen]
  rfl

theorem splitAssignment_at (hm : Block.Mono P) {line name value : List LChar} {ty : AssignType} (h : i.At P line)
    (ha : AssignText line name ty value) {nes ves : List Expr} (hn : Reads name (.ok nes)) (hv : Reads value (.ok ves)) :
    ∃ post na vs va, splitAssignment i = .ok (.done post (ty, na, vs, va)) ∧ vs.At P value ∧ na.WF ∧ na.flat = nes ∧
      va.WF ∧ va.flat = ves := by
  obtain ⟨r, n, h1, h2, h3⟩ := parseAssignmentOperator_at h ha
  obtain ⟨r', q, w1, w2, _⟩ := whitespace_at h2
  rw [dropWhile_solid (by
    obtain ⟨name, gap, op, gap', value, ty, _, _, _, _, h5⟩ := ha
    intro z hz
    cases e : lblank z with
    | false => rfl
    | true => exact absurd (lblank_iff.mp e) (h5 z hz))] at w2
  obtain ⟨rn, na, a1, _, a3, a4⟩ := parseAst_at hm h3 hn
  obtain ⟨rv, va, b1, _, b3, b4⟩ := parseAst_at hm w2 hv
  refine ⟨rv, na, r', va, ?_, w2, a4, a3, b4, b3⟩
  unfold splitAssignment
  rw [h1, done_andThen]
  dsimp only
  rw [w1, done_andThen, a1, done_andThen, b1, done_andThen]
  rfl

theorem AssignText.dropBlanks {line name value : List LChar} {ty : AssignType} (h : AssignText line name ty value) :
    AssignText (line.dropWhile lblank) name ty value ∧ line.dropWhile lblank ≠ [] := by
  obtain ⟨name, gap, op, gap', value, ty, h1, h2, h3, h4, h5⟩ := h
  obtain ⟨c, cs, hc, hn, hb, ht⟩ := opText_head h3
  obtain ⟨x, op', rfl, rfl⟩ : ∃ x op', op = x :: op' ∧ x.1 = c := by
    cases op with
    | nil => simp at hc
    | cons x op' => exact ⟨x, op', rfl, by simpa using (List.cons.inj hc).1⟩
  cases name with
  | nil =>
    rw [List.nil_append, dropWhile_blanks h2, dropWhile_solid (by
      intro z hz
      simp only [List.cons_append, List.head?_cons, Option.some.injEq] at hz
      subst hz
      cases e : lblank x with
      | false => rfl
      | true => rcases lblank_iff.mp e with e | e <;> contradiction)]
    exact ⟨.mk [] [] _ gap' value ty h1 (by simp [Blanks]) h3 h4 h5, by simp⟩
  | cons y name =>
    rw [dropWhile_solid (by
      intro z hz
      simp only [List.cons_append, List.head?_cons, Option.some.injEq] at hz
      subst hz
      cases e : lblank y with
      | false => rfl
      | true =>
        have := (h1 y (by simp)).1
        rcases lblank_iff.mp e with e | e <;> rw [e] at this <;> exact absurd this (by decide))]
    exact ⟨.mk _ _ _ _ _ _ h1 h2 h3 h4 h5, by simp⟩

/-! ### States -/

theorem St.env_eq (st : St) (s : Str) : st.env s = (st.lookup s).map fun p => p.value.flat := rfl

theorem St.WF.lookup_after {st st' : St} (h : st.WF) (hdb : st'.db = st.db) {cs : List NameCall}
    (hn : st'.names = st.names.after cs) : st'.lookup = st.lookup := by
  have hd : st'.names.vars.strings.Nodup := by rw [hn]; exact vars_nodup_after st.names cs h.nodup
  funext s
  simp only [St.lookup, hdb]
  cases hv : st.names.variableName s with
  | some v =>
    have hr := NameCache.resolveVar_after _ cs _ _ ((variableName_iff' _ h.nodup _ _).mp hv)
    rw [← hn] at hr
    rw [(variableName_iff' _ hd _ _).mpr hr]
  | none =>
    cases hv' : st'.names.variableName s with
    | none => rfl
    | some v =>
      simp only [Option.bind_none, Option.bind_some]
      cases hg : st.db.getVariable v with
      | none => rfl
      | some p =>
        exfalso
        obtain ⟨s', hs'⟩ := h.known v p hg
        have h1 := NameCache.resolveVar_after _ cs _ _ hs'
        rw [← hn] at h1
        have h2 := (variableName_iff' _ hd _ _).mp hv'
        have h3 : s' = s := Option.some.inj (h1.symm.trans h2)
        subst h3
        rw [(variableName_iff' _ h.nodup _ _).mpr hs'] at hv
        cases hv

/-- Changing the value of one variable. -/
theorem St.WF.lookup_set {st : St} (h : st.WF) {v : VariableName} {s : Str} {p : VarParams}
    (hv : st.names.variableName s = some v) {db : Database}
    (hget : ∀ w, db.getVariable w = if w = v then some p else st.db.getVariable w) :
    ∀ x, ({ st with db := db } : St).lookup x = if x = s then some p else st.lookup x := by
  intro x
  simp only [St.lookup]
  by_cases e : x = s
  · subst e
    rw [if_pos rfl, hv]
    simp [hget]
  · rw [if_neg e]
    cases hx : st.names.variableName x with
    | none => rfl
    | some w =>
      have : w ≠ v := by
        rintro rfl
        have h1 := (variableName_iff' _ h.nodup _ _).mp hv
        have h2 := (variableName_iff' _ h.nodup _ _).mp hx
        exact e (Option.some.inj (h2.symm.trans h1))
      simp only [Option.bind_some, hget, if_neg this]

/-! ### The action of the line -/

/-- The action is the assignment of `es` with operator `ty`. -/
def ActionOk (st : St) (ty : AssignType) (es : List Expr) : VarActionKind → Prop
  | .define p => p.value.WF ∧ p.origin = .file ∧ p.flavor = ty.flavor ∧
      ((ty ≠ .simple ∧ ty ≠ .append ∧ p.value.flat = es) ∨
       (ty = .simple ∧ ∃ l b t vs, p.value = .preEvaluated l b ∧ Expands st.env es t vs ∧ Block.ltext b = t))
  | .append a => ty = .append ∧ a.WF ∧ a.flat = es

theorem evalName_of (fs : Fs) {st : St} (hst : st.WF) {a : Ast} (ha : a.WF) {t : List LChar} {ns : List Str}
    (he : Expands st.env a.flat t ns) :
    ∃ N, ∀ n, N ≤ n → evalName (recF fs n) a st =
      .ok (((st.interned ns).names.internVar (trim (textOf t))).1, (st.interned ns).interned [trim (textOf t)]) := by
  obtain ⟨N, hN⟩ := evals_of_expands fs ha hst he
  refine ⟨N, fun n hn => ?_⟩
  obtain ⟨b, h1, h2, _, h4, h5⟩ := (hN.mono hn).eval
  unfold evalName
  have hs : b.intoString = .ok (textOf t) := by rw [Block.intoString_eq b h4, Block.text, h2]
  simp only [h1, ok_bind, hs]
  rfl

/-- An evaluation that gives a value gives the same value with every larger budget. -/
theorem eval_stable (fs : Fs) {st : St} (hst : st.WF) {a : Ast} (ha : a.WF) {t : List LChar} {vs : List Str}
    (he : Expands st.env a.flat t vs) :
    ∃ N b, (∀ n, N ≤ n → (recF fs n).eval a st = .ok (b, st.interned vs)) ∧ Block.ltext b = t ∧
      SensOf b.sens (st.interned vs).names vs ∧ Block.WF b ∧ b.Solid := by
  obtain ⟨N, hN⟩ := evals_of_expands fs ha hst he
  obtain ⟨b, h1, h2⟩ := hN.eval
  exact ⟨N, b, fun n hn => evalF_mono (fs := fs) hn h1, h2⟩

theorem parseVariableAssignment_at (fs : Fs) (hm : Block.Mono P) {line name value : List LChar} {ty : AssignType}
    (h : i.At P line) (ha : AssignText line name ty value) {nes ves : List Expr} (hn : Reads name (.ok nes))
    (hv : Reads value (.ok ves)) {st : St} (hst : st.WF) {nt : List LChar} {ns : List Str} (he : Expands st.env nes nt ns)
    (hs : ty = .simple → value ≠ [] ∧ ∃ vt vs, Expands st.env ves vt vs) (mods : Modifiers) :
    ∃ N post a st1, (∀ n, N ≤ n → parseVariableAssignment (recF fs n) mods i st = .ok (.done post a, st1)) ∧
      (∃ us, st1 = st.interned us) ∧ a.modifiers = mods ∧
      st1.names.variableName (trim (textOf nt)) = some a.name ∧ ActionOk st ty ves a.action := by
  obtain ⟨post, na, vs, va, h1, h2, h3, h4, h5, h6⟩ := splitAssignment_at hm h ha hn hv
  rw [← h4] at he
  obtain ⟨N, hN⟩ := evalName_of fs hst h3 he
  have hv1 := ((hst.interned ns).intern (trim (textOf nt))).1
  have hcat : (st.interned ns).interned [trim (textOf nt)] = st.interned (ns ++ [trim (textOf nt)]) :=
    (St.interned_append _ _ _).symm
  have def1 : ∀ ty', ty = ty' → ty' ≠ .simple → ty' ≠ .append → ∃ N post a st1, (∀ n, N ≤ n → parseVariableAssignment (recF fs n) mods i st = .ok (.done post a, st1)) ∧
      (∃ us, st1 = st.interned us) ∧ a.modifiers = mods ∧
      st1.names.variableName (trim (textOf nt)) = some a.name ∧ ActionOk st ty ves a.action := by
    rintro ty' rfl e1 e2
    refine ⟨N, post, ⟨((st.interned ns).names.internVar (trim (textOf nt))).1, mods,
      .define ⟨va, ty.flavor, .file⟩⟩, (st.interned ns).interned [trim (textOf nt)], fun n hn => ?_, ⟨_, hcat⟩, rfl, hv1,
      h5, rfl, rfl, .inl ⟨e1, e2, h6⟩⟩
    unfold parseVariableAssignment
    simp only [h1, ok_bind, hN n hn]
    cases ty <;> first | rfl | exact absurd rfl e1 | exact absurd rfl e2
  cases ty with
  | recursive => exact def1 _ rfl (by decide) (by decide)
  | conditional => exact def1 _ rfl (by decide) (by decide)
  | bang => exact def1 _ rfl (by decide) (by decide)
  | append =>
    refine ⟨N, post, ⟨((st.interned ns).names.internVar (trim (textOf nt))).1, mods,
      .append va⟩, (st.interned ns).interned [trim (textOf nt)], fun n hn => ?_, ⟨_, hcat⟩, rfl, hv1,
      rfl, h5, h6⟩
    unfold parseVariableAssignment
    simp only [h1, ok_bind, hN n hn]
    rfl
  | simple =>
    obtain ⟨hne, vt, us, hx⟩ := hs rfl
    have hst1 := (hst.interned ns).interned [trim (textOf nt)]
    have henv1 : ((st.interned ns).interned [trim (textOf nt)]).env = st.env := by
      rw [(hst.interned ns).env_interned, hst.env_interned]
    rw [← h6, ← henv1] at hx
    obtain ⟨M, b, hM, b1, _, b3, _⟩ := eval_stable fs hst1 h5 hx
    have hloc := Span.location_mono h2.good (by rw [h2.parent]; exact hm)
    obtain ⟨x, value', rfl⟩ : ∃ x value', value = x :: value' := by
      cases value with
      | nil => exact absurd rfl hne
      | cons x v => exact ⟨x, v, rfl⟩
    rw [h2.ltext] at hloc
    refine ⟨max N M, post, ⟨((st.interned ns).names.internVar (trim (textOf nt))).1, mods,
      .define ⟨.preEvaluated x.2 b, .simple, .file⟩⟩, ((st.interned ns).interned [trim (textOf nt)]).interned us,
      fun n hn => ?_, ⟨ns ++ [trim (textOf nt)] ++ us, by rw [hcat, ← St.interned_append]⟩, rfl,
      variableName_interned hst1 us hv1,
      b3, rfl, rfl, .inr ⟨rfl, x.2, b, vt, us, rfl, by rw [← h6, ← henv1]; exact hx, b1⟩⟩
    unfold parseVariableAssignment
    simp only [h1, ok_bind, hN n (by omega), hM n (by omega), hloc]
    rfl

/-- An assignment line. -/
theorem parseVariableLine_at (fs : Fs) (hm : Block.Mono P) {line name value : List LChar} {ty : AssignType}
    (h : i.At P line) (ha : AssignText line name ty value) {nes ves : List Expr} (hn : Reads name (.ok nes))
    (hv : Reads value (.ok ves)) {st : St} (hst : st.WF) {nt : List LChar} {ns : List Str} (he : Expands st.env nes nt ns)
    (hs : ty = .simple → value ≠ [] ∧ ∃ vt vs, Expands st.env ves vt vs) :
    ∃ N post a st1, (∀ n, N ≤ n → parseVariableLine (recF fs n) i st = .ok (.done post a, st1)) ∧
      (∃ us, st1 = st.interned us) ∧ a.modifiers = Modifiers.none ∧
      st1.names.variableName (trim (textOf nt)) = some a.name ∧ ActionOk st ty ves a.action := by
  obtain ⟨r, q, w1, w2, _⟩ := whitespace_at h
  obtain ⟨ha', hne⟩ := ha.dropBlanks
  obtain ⟨N, post, a, st1, e1, e2, e3, e4⟩ := parseVariableAssignment_at fs hm w2 ha' hn hv hst he hs Modifiers.none
  refine ⟨N, post, a, st1, fun n hn => ?_, e2, e3, e4⟩
  unfold parseVariableLine
  have hl : r.length ≠ 0 := by rw [w2.length]; simpa using hne
  simp only [w1, ok_bind, if_neg hl, modifierLoop, e1 n hn]
  rfl

theorem flat_location_concat {loc : Location} {a b c : Ast} :
    (Ast.collapsingConcat loc [a, b, c]).flat = a.flat ++ (b.flat ++ c.flat) := by
  rw [flat_collapsing]
  simp [Ast.flatList]

/-- Carrying out the action. -/
theorem handleVariableAction_at {st0 st : St} (hst : st.WF) (henv : st0.env = st.env) {a : VarAction}
    {s : Str} (hmod : a.modifiers = Modifiers.none) (hv : st.names.variableName s = some a.name) {ty : AssignType}
    {es : List Expr} (ha : ActionOk st0 ty es a.action) (p : PState) :
    ∃ st' pv, handleVariableAction p st a = .ok (p, st') ∧ st'.WF ∧ Assigned st st' s pv ∧ Stores st s ty es pv := by
  have hstart : ∀ (k : VarActionKind), handleVariableAction p st a = (match a.action with
    | .define v => .ok (p, { st with db := st.db.setVariable a.name v })
    | .append node =>
      .ok (p, { st with db := st.db.appendToVariable a.name node.location ⟨node, .recursive, .file⟩ true })) := by
    intro _
    unfold handleVariableAction
    rw [hmod]
    cases a.action <;> rfl
  rw [hstart a.action]
  have hwf : ∀ (pv : VarParams) (db : Database), pv.value.WF →
      (∀ w, db.getVariable w = if w = a.name then some pv else st.db.getVariable w) → db.rules = st.db.rules →
      db.targetVariables = st.db.targetVariables →
      ({ st with db := db } : St).WF ∧ Assigned st { st with db := db } s pv := by
    intro pv db hp hget hr ht
    have hl := hst.lookup_set hv hget
    refine ⟨⟨hst.nodup, fun w q hw => ?_, fun w q hw => ?_⟩, ⟨?_, ?_, hr, ht, ⟨[], rfl⟩, rfl⟩⟩
    · rw [hget] at hw
      by_cases e : w = a.name
      · subst e
        exact ⟨s, (variableName_iff' _ hst.nodup _ _).mp hv⟩
      · rw [if_neg e] at hw
        exact hst.known w q hw
    · rw [hget] at hw
      by_cases e : w = a.name
      · rw [if_pos e] at hw
        cases hw
        exact hp
      · rw [if_neg e] at hw
        exact hst.values w q hw
    · rw [hl, if_pos rfl]
    · intro x hx
      rw [hl, if_neg hx]
  have hlook : st.lookup s = st.db.getVariable a.name := by rw [St.lookup, hv]; rfl
  cases hact : a.action with
  | define pv =>
    rw [hact] at ha
    obtain ⟨h1, h2, h3, h4⟩ := ha
    obtain ⟨w1, w2⟩ := hwf pv (st.db.setVariable a.name pv) h1 (fun w => AMap.get_insert _ _ _ _) rfl rfl
    refine ⟨_, pv, rfl, w1, w2, ?_⟩
    obtain ⟨va, fl, og⟩ := pv
    simp only at h1 h2 h3 h4
    subst h2 h3
    rcases h4 with ⟨e1, e2, rfl⟩ | ⟨rfl, l, b, t, vs, rfl, e1, e2⟩
    · cases ty with
      | simple => exact absurd rfl e1
      | append => exact absurd rfl e2
      | recursive => exact .recursive
      | conditional => exact .conditional
      | bang => exact .shell
    · exact .simple (by rw [← henv]; exact e1) e2
  | append node =>
    rw [hact] at ha
    obtain ⟨rfl, h1, rfl⟩ := ha
    cases hold : st.db.getVariable a.name with
    | none =>
      have hold' : st.db.variables.get a.name = none := hold
      obtain ⟨w1, w2⟩ := hwf ⟨node, .recursive, .file⟩
        (st.db.appendToVariable a.name node.location ⟨node, .recursive, .file⟩ true) h1
        (fun w => by simp only [Database.appendToVariable, hold', Database.getVariable, AMap.get_insert])
        (by simp only [Database.appendToVariable, hold']) (by simp only [Database.appendToVariable, hold'])
      exact ⟨_, _, rfl, w1, w2, .appendNew (by rw [hlook, hold])⟩
    | some old =>
      have hold' : st.db.variables.get a.name = some old := hold
      have hw : (Ast.collapsingConcat node.location [old.value, Ast.mkConstant (.synthetic [' ']), node]).WF := by
        refine wf_collapsing ⟨hst.values _ _ hold, ?_, h1, trivial⟩
        show AsciiS _
        unfold AsciiS; decide
      obtain ⟨w1, w2⟩ := hwf
        { old with value := Ast.collapsingConcat node.location [old.value, Ast.mkConstant (.synthetic [' ']), node] }
        (st.db.appendToVariable a.name node.location ⟨node, .recursive, .file⟩ true) hw
        (fun w => by simp only [Database.appendToVariable, hold', Database.getVariable, AMap.get_insert]; rfl)
        (by simp only [Database.appendToVariable, hold']) (by simp only [Database.appendToVariable, hold'])
      refine ⟨_, _, rfl, w1, w2, .append (by rw [hlook, hold]) ?_⟩
      rw [flat_location_concat]
      rfl

end Hastur
