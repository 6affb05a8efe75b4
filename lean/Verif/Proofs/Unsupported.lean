import Verif.Spec.Unsupported
import Verif.Proofs.Keywords
import Verif.Proofs.RuleLine
import Verif.Proofs.GraphSubst
/-
Lemmas: constructs that are not implemented.
-/
namespace Hastur

open Res

variable {P : Block} {t : List LChar} {i : Span}

/-- An expression at hand is parsed, or parsing it is a failure. -/
theorem parseAst_hard (hm : Block.Mono P) (h : i.At P t) :
    (∃ r a, parseAst i = .ok (.done r a)) ∨ ∃ k, parseAst i = .ok (.err (.failure k)) := by
  obtain ⟨o, ho⟩ := reads_exists t
  have := parseAst_at hm h ho
  cases o with
  | ok es =>
    obtain ⟨r, a, e, _⟩ := this
    exact .inl ⟨r, a, e⟩
  | error k => exact .inr ⟨_, this.1⟩

/-! ### Conditionals -/

theorem elseIf_rest {u : List LChar} {x : LChar} (hx : x ∈ u) (hb : ¬ (x.1 = ' ' ∨ x.1 = '\t')) : u.dropWhile lblank ≠ [] := by
  intro h
  rw [List.dropWhile_eq_nil_iff] at h
  exact hb (lblank_iff.mp (h x hx))

theorem parseConditionalLine_unsupported {line : List LChar} (h : i.At P line) (hu : UnsupportedCond (line.dropWhile lblank)) :
    (∀ k, parseConditionalLine i ≠ .ok (.err (.error k))) ∧
      ∀ r c, parseConditionalLine i = .ok (.done r c) → Unhandled c := by
  have noErr : ∀ {α : Type} (q : PRes α) (k), returnError q ≠ .ok (.err (.error k)) := by
    intro α q k hq
    unfold returnError at hq
    obtain ⟨o, ho, he⟩ := Res.bind_eq_ok.mp hq
    cases o with
    | done => cases he
    | err e => cases e <;> cases he
  have mapOk : ∀ {α : Type} (q : PRes α) (f : α → Conditional), (∀ k, q ≠ .ok (.err (.error k))) → (∀ a, Unhandled (f a)) →
      (∀ k, q.mapP f ≠ .ok (.err (.error k))) ∧ ∀ r c, q.mapP f = .ok (.done r c) → Unhandled c := by
    intro α q f hq hf
    unfold Res.mapP Res.andThen
    constructor
    · intro k h
      obtain ⟨o, ho, he⟩ := Res.bind_eq_ok.mp h
      cases o with
      | done => cases he
      | err e => cases he; exact hq _ ho
    · intro r c h
      obtain ⟨o, ho, he⟩ := Res.bind_eq_ok.mp h
      cases o with
      | done => cases he; exact hf _
      | err e => cases he
  generalize hl : line.dropWhile lblank = u at hu
  unfold parseConditionalLine parseCondF
  cases hu with
  | ifdef hk =>
    obtain ⟨r, e1, _⟩ := condKeyword_at (k := .ifDef) h hl hk
    rw [e1, done_andThen]
    exact mapOk _ _ (noErr _) fun _ => trivial
  | ifndef hk =>
    obtain ⟨r, e1, _⟩ := condKeyword_at (k := .ifNDef) h hl hk
    rw [e1, done_andThen]
    exact mapOk _ _ (noErr _) fun _ => trivial
  | elseIf hk hx hb =>
    obtain ⟨r, e1, g1⟩ := condKeyword_at (k := .else_) h hl hk
    obtain ⟨s, q, e2, g2, _⟩ := whitespace_at g1
    have hs : s.length > 0 := by
      rw [g2.length]
      refine List.length_pos_of_ne_nil ?_
      rw [dropWhile_solid fun y hy => by simpa using fun hb => dropBlank_head _ y hy (lblank_iff.mp hb)]
      exact elseIf_rest hx hb
    rw [e1, done_andThen]
    simp only [e2, done_andThen, if_pos hs]
    constructor
    · intro k h
      unfold Res.andThen at h
      obtain ⟨o, ho, he⟩ := Res.bind_eq_ok.mp h
      cases o with
      | done r c => cases c <;> cases he
      | err e => cases he; exact noErr _ _ ho
    · intro r c h
      unfold Res.andThen at h
      obtain ⟨o, ho, he⟩ := Res.bind_eq_ok.mp h
      cases o with
      | done r c => cases c <;> cases he <;> trivial
      | err e => cases he

theorem UnsupportedCond.ne_nil {line : List LChar} (h : UnsupportedCond (line.dropWhile lblank)) : line ≠ [] := by
  rintro rfl
  simp only [List.dropWhile_nil] at h
  generalize hu : ([] : List LChar) = u at h
  cases h with
  | @ifdef kw _ h1 =>
    have : kw = [] := (List.append_eq_nil_iff.mp hu.symm).1
    subst this
    exact absurd h1 (by decide)
  | @ifndef kw _ h1 =>
    have : kw = [] := (List.append_eq_nil_iff.mp hu.symm).1
    subst this
    exact absurd h1 (by decide)
  | @elseIf kw _ _ h1 =>
    have : kw = [] := (List.append_eq_nil_iff.mp hu.symm).1
    subst this
    exact absurd h1 (by decide)

theorem parseLine_unsupportedCond (fs : Fs) {p : PState} {st : St} {line rest : List LChar}
    (h : AtLine P i t line rest p st) (hr : p.currentRule = none ∨ (textOf t).head? ≠ some st.commandChar)
    (hc : UnsupportedCond (line.dropWhile lblank)) (r : Rec) (j : Span) (p' : PState) (st' : St) :
    parseLine fs r p st i ≠ .ok (.done j (), p', st') := by
  intro hp
  obtain ⟨j, b, h1, h2, h3⟩ := makefileLine_logical h.at_ h.logical h.comment
  have hat := h3.at
  rw [parseLine_collapsed fs r h.at_ h.comment h.define h.command hr] at hp
  have hlen : b.len ≠ 0 := by
    have := hat.length
    have e' : b.span.length = b.len := rfl
    rw [← e', this]
    simpa using hc.ne_nil
  obtain ⟨g1, g2⟩ := parseConditionalLine_unsupported hat hc
  unfold parseCollapsed at hp
  simp only [h1, ok_bind, if_neg hlen] at hp
  obtain ⟨o, ho, he⟩ := Res.bind_eq_ok.mp hp
  cases o with
  | done s c =>
    have := g2 s c ho
    cases c with
    | ifDef a => cases he
    | ifNDef a => cases he
    | else_ a => cases a with
      | none => cases this
      | some c => cases he
    | _ => cases this
  | err e => cases e with
    | error k => exact g1 k ho
    | failure k => cases he

/-! ### Variables -/

/-- A modifier that is not implemented has been seen. -/
def Modifiers.flagged (m : Modifiers) : Bool := m.export_ || m.override_ || m.private_

theorem modifierKeyword_at {kw u : List LChar} {w : Str} {m : Modifier}
    (hw : (w, m) ∈ [("define".toList, Modifier.define), ("export".toList, .export_), ("override".toList, .override_),
      ("private".toList, .private_), ("undefine".toList, .undefine)])
    (h : i.At P (kw ++ u)) (hk : (textOf kw).map lower = w) :
    ∃ r, modifierKeyword i = .ok (.done r m) ∧ r.At P (u.dropWhile lblank) := by
  have hasc : ∀ w ∈ ["define".toList, "export".toList, "override".toList, "private".toList, "undefine".toList],
      AsciiS w ∧ w.map lower = w := by unfold AsciiS; decide
  have no : ∀ w' ∈ ["define".toList, "export".toList, "override".toList, "private".toList, "undefine".toList],
      ¬ w' <+: w → ¬ w <+: w' → Nom.tagNoCase w' i = .ok (.err (.error .code)) := by
    intro w' hw' n1 n2
    refine (Nom.tagNoCase_at h (hasc w' hw').1).2 fun hp => ?_
    rw [(hasc w' hw').2, textOf_append, List.map_append, hk] at hp
    exact not_prefix_append n1 n2 hp
  have yes : ∀ w' ∈ ["define".toList, "export".toList, "override".toList, "private".toList, "undefine".toList],
      w' = w → ∃ r q, Nom.tagNoCase w' i = .ok (.done r q) ∧ r.At P u := by
    intro w' hw' e
    obtain ⟨r, q, e1, e2, _⟩ := (Nom.tagNoCase_at h (hasc w' hw').1).1 (by
      rw [(hasc w' hw').2, textOf_append, List.map_append, hk, e]; exact List.prefix_append _ _)
    have : w'.length = kw.length := by rw [e, ← hk]; simp [textOf]
    rw [this, List.drop_left] at e2
    exact ⟨r, q, e1, e2⟩
  have fin : ∀ {r : Span}, r.At P u → ∃ r' q, whitespace r = .ok (.done r' q) ∧ r'.At P (u.dropWhile lblank) := by
    intro r hr
    obtain ⟨r', q, e1, e2, _⟩ := whitespace_at hr
    exact ⟨r', q, e1, e2⟩
  unfold modifierKeyword
  simp only [List.mem_cons, List.not_mem_nil, or_false, Prod.mk.injEq] at hw
  rcases hw with ⟨rfl, rfl⟩ | ⟨rfl, rfl⟩ | ⟨rfl, rfl⟩ | ⟨rfl, rfl⟩ | ⟨rfl, rfl⟩
  · obtain ⟨r, q, e1, e2⟩ := yes "define".toList (by simp) rfl
    obtain ⟨r', q', e3, e4⟩ := fin e2
    rw [e1]
    simp only [done_mapP, done_orElse, done_andThen, e3]
    exact ⟨r', rfl, e4⟩
  · obtain ⟨r, q, e1, e2⟩ := yes "export".toList (by simp) rfl
    obtain ⟨r', q', e3, e4⟩ := fin e2
    rw [no "define".toList (by simp) (by decide) (by decide), e1]
    simp only [err_mapP, error_orElse, done_mapP, done_orElse, done_andThen, e3]
    exact ⟨r', rfl, e4⟩
  · obtain ⟨r, q, e1, e2⟩ := yes "override".toList (by simp) rfl
    obtain ⟨r', q', e3, e4⟩ := fin e2
    rw [no "define".toList (by simp) (by decide) (by decide), no "export".toList (by simp) (by decide) (by decide), e1]
    simp only [err_mapP, error_orElse, done_mapP, done_orElse, done_andThen, e3]
    exact ⟨r', rfl, e4⟩
  · obtain ⟨r, q, e1, e2⟩ := yes "private".toList (by simp) rfl
    obtain ⟨r', q', e3, e4⟩ := fin e2
    rw [no "define".toList (by simp) (by decide) (by decide), no "export".toList (by simp) (by decide) (by decide),
      no "override".toList (by simp) (by decide) (by decide), e1]
    simp only [err_mapP, error_orElse, done_mapP, done_orElse, done_andThen, e3]
    exact ⟨r', rfl, e4⟩
  · obtain ⟨r, q, e1, e2⟩ := yes "undefine".toList (by simp) rfl
    obtain ⟨r', q', e3, e4⟩ := fin e2
    rw [no "define".toList (by simp) (by decide) (by decide), no "export".toList (by simp) (by decide) (by decide),
      no "override".toList (by simp) (by decide) (by decide), no "private".toList (by simp) (by decide) (by decide), e1]
    simp only [err_mapP, error_orElse, done_mapP, done_andThen, e3]
    exact ⟨r', rfl, e4⟩

theorem parseDefineHead_hard (r : Rec) (hm : Block.Mono P) {mods : Modifiers} {st st' : St} {o : IRes VarAction} (h : i.At P t)
    (hn : ∀ name ty value, AssignText t name ty value → ∃ es, Reads name (.ok es))
    (ho : parseDefineHead r mods i st = .ok (o, st')) : ∃ rest a, o = .done rest a ∧ a.modifiers = mods := by
  have whole : ∀ {o : IRes VarAction} {st' : St}, defineWholeName mods i st = .ok (o, st') →
      ∃ rest a, o = .done rest a ∧ a.modifiers = mods := by
    intro o st' ho
    unfold defineWholeName at ho
    obtain ⟨s, _, ho⟩ := Res.bind_eq_ok.mp ho
    obtain ⟨rest, _, ho⟩ := Res.bind_eq_ok.mp ho
    cases ho
    exact ⟨_, _, rfl, rfl⟩
  unfold parseDefineHead at ho
  by_cases hna : NoAssign t
  · rw [parseAssignmentOperator_none h hna] at ho
    exact whole ho
  · obtain ⟨name, ty, value, ha⟩ : ∃ name ty value, AssignText t name ty value := by
      apply Classical.byContradiction
      intro hno
      exact hna fun name ty value ha => hno ⟨name, ty, value, ha⟩
    obtain ⟨es, hes⟩ := hn _ _ _ ha
    obtain ⟨s, nm, e1, e2, e3⟩ := parseAssignmentOperator_at h ha
    obtain ⟨s', q, e4, e5, _⟩ := whitespace_at e2
    obtain ⟨rr, a, k1, _⟩ := parseAst_at hm e3 hes
    simp only [e1, done_andThen, e4, done_def, ok_bind] at ho
    split at ho
    · simp only [k1, ok_bind] at ho
      obtain ⟨⟨v, st1⟩, _, ho⟩ := Res.bind_eq_ok.mp ho
      cases ho
      exact ⟨_, _, rfl, rfl⟩
    · exact whole ho

theorem parseVariableAssignment_hard (r : Rec) (hm : Block.Mono P) {mods : Modifiers} {st st' : St} {o : IRes VarAction}
    {name value : List LChar} {ty : AssignType} {nes ves : List Expr} (h : i.At P t) (ha : AssignText t name ty value)
    (hn : Reads name (.ok nes)) (hv : Reads value (.ok ves)) (ho : parseVariableAssignment r mods i st = .ok (o, st')) :
    ∃ rest a, o = .done rest a ∧ a.modifiers = mods := by
  obtain ⟨post, na, vs, va, h1, _⟩ := splitAssignment_at hm h ha hn hv
  unfold parseVariableAssignment at ho
  simp only [h1, ok_bind] at ho
  obtain ⟨⟨v, st1⟩, _, ho⟩ := Res.bind_eq_ok.mp ho
  cases ty with
  | simple =>
    obtain ⟨⟨b, st2⟩, _, ho⟩ := Res.bind_eq_ok.mp ho
    obtain ⟨loc, _, ho⟩ := Res.bind_eq_ok.mp ho
    obtain ⟨loc', _, ho⟩ := Res.bind_eq_ok.mp ho
    cases ho
    exact ⟨_, _, rfl, rfl⟩
  | _ =>
    cases ho
    exact ⟨_, _, rfl, rfl⟩

/-- The modifiers are gone through. -/
theorem modifierLoop_modified (r : Rec) {ws : List Str} {line u : List LChar} (hw : Modified ws line u) :
    ∀ {i : Span} {n : Nat} {mods : Modifiers} {st : St}, i.At P line → line.length < n →
      ∃ j m mods', j.At P u ∧ u.length < m ∧ modifierLoop r n mods i st = modifierLoop r m mods' j st ∧
        ((ws ≠ [] ∨ mods.flagged = true) → mods'.flagged = true) := by
  induction hw with
  | nil => intro i n mods st h hn; exact ⟨i, n, mods, h, hn, rfl, fun h => h.resolve_left (by simp)⟩
  | @cons ws kw gap line u hk hg hh hna _ ih =>
    intro i n mods st h hn
    obtain ⟨n, rfl⟩ : ∃ k, n = k + 1 := ⟨n - 1, by omega⟩
    have hlt : line.length < n := by
      have : kw ≠ [] := by rintro rfl; revert hk; decide
      have := List.length_pos_of_ne_nil this
      simp at hn
      omega
    have hdrop : (gap ++ line).dropWhile lblank = line := by
      rw [dropWhile_blanks hg]
      exact dropWhile_solid fun y hy => by simpa using fun hb => hh y hy (lblank_iff.mp hb)
    have step : ∀ (m : Modifier) (mods1 : Modifiers), mods1.flagged = true →
        ((textOf kw).map lower, m) ∈ [("define".toList, Modifier.define), ("export".toList, .export_),
          ("override".toList, .override_), ("private".toList, .private_), ("undefine".toList, .undefine)] →
        (∀ j, modifierKeyword i = .ok (.done j m) → modifierLoop r (n + 1) mods i st = modifierLoop r n mods1 j st) →
        ∃ j m mods', j.At P u ∧ u.length < m ∧ modifierLoop r (n + 1) mods i st = modifierLoop r m mods' j st ∧
          (((textOf kw).map lower :: ws ≠ [] ∨ mods.flagged = true) → mods'.flagged = true) := by
      intro m mods1 hf hm hs
      obtain ⟨j, e1, e2⟩ := modifierKeyword_at hm h rfl
      rw [hdrop] at e2
      obtain ⟨j', m', mods', g1, g2, g3, g4⟩ := ih (mods := mods1) (st := st) e2 hlt
      exact ⟨j', m', mods', g1, g2, (hs j e1).trans g3, fun _ => g4 (.inr hf)⟩
    have run : ∀ (m : Modifier) (j : Span), modifierKeyword i = .ok (.done j m) → modifierLoop r (n + 1) mods i st = 
        (match m with
        | .export_ => modifierLoop r n { mods with export_ := true } j st
        | .override_ => modifierLoop r n { mods with override_ := true } j st
        | .private_ => modifierLoop r n { mods with private_ := true } j st
        | .define => parseDefineHead r { mods with define := true } j st
        | .undefine => .panic .unimplemented) := by
      intro m j e
      rw [modifierLoop]
      simp only [parseVariableAssignment_none r mods st h hna, ok_bind, e]
      rfl
    simp only [List.mem_cons, List.not_mem_nil, or_false] at hk
    rcases hk with hk | hk | hk
    · exact step .export_ { mods with export_ := true } (by simp [Modifiers.flagged]) (by rw [hk]; simp) fun j e => run _ j e
    · exact step .override_ { mods with override_ := true } (by simp [Modifiers.flagged]) (by rw [hk]; simp) fun j e => run _ j e
    · exact step .private_ { mods with private_ := true } (by simp [Modifiers.flagged]) (by rw [hk]; simp) fun j e => run _ j e

theorem parseVariableLine_hard (r : Rec) (hm : Block.Mono P) {ws : List Str} {st st' : St} {o : IRes VarAction} (h : i.At P t)
    (hv : VariableText ws (t.dropWhile lblank)) (ho : parseVariableLine r i st = .ok (o, st')) :
    ∃ rest a, o = .done rest a ∧ (ws ≠ [] → a.modifiers.flagged = true) := by
  obtain ⟨r1, w1, e1, h1, _⟩ := whitespace_at h
  unfold parseVariableLine at ho
  simp only [e1, ok_bind] at ho
  have kwNe : ∀ {kw : List LChar} {s : Str}, (textOf kw).map lower = s → s ≠ [] → kw ≠ [] := by
    rintro kw s e hs rfl
    exact hs e.symm
  have modNe : ∀ {ws : List Str} {a b : List LChar}, Modified ws a b → b ≠ [] → a ≠ [] := by
    intro ws a b hab
    cases hab with
    | nil => exact id
    | cons hk => intro _ e; rw [(List.append_eq_nil_iff.mp e).1] at hk; revert hk; decide
  have assignNe : ∀ {line name value : List LChar} {ty : AssignType}, AssignText line name ty value → line ≠ [] := by
    intro line name value ty ha e
    obtain ⟨x, u, e', _⟩ := ha.after_name
    rw [e] at e'
    cases name <;> cases e'
  have hne : t.dropWhile lblank ≠ [] := by
    cases hv with
    | assign hmo ha => exact modNe hmo (assignNe ha)
    | define hmo _ hk => exact modNe hmo (by simp [kwNe hk (by decide)])
    | undefine hmo _ hk => exact modNe hmo (by simp [kwNe hk (by decide)])
  have h0 : ¬ r1.length = 0 := by
    rw [h1.length]
    exact fun e => hne (List.length_eq_zero_iff.mp e)
  rw [if_neg h0] at ho
  have hn : (t.dropWhile lblank).length < r1.length + 1 := by rw [h1.length]; omega
  cases hv with
  | assign hmo ha hna hva =>
    obtain ⟨j, m, mods', g1, g2, g3, g4⟩ := modifierLoop_modified r hmo h1 hn (mods := Modifiers.none) (st := st)
    rw [g3] at ho
    obtain ⟨m, rfl⟩ : ∃ k, m = k + 1 := ⟨m - 1, by omega⟩
    unfold modifierLoop at ho
    obtain ⟨⟨o1, st1⟩, k1, k2⟩ := Res.bind_eq_ok.mp ho
    obtain ⟨rest, a, rfl, ha2⟩ := parseVariableAssignment_hard r hm g1 ha hna hva k1
    cases k2
    exact ⟨_, _, rfl, fun hw => by rw [ha2]; exact g4 (.inl hw)⟩
  | define hmo hna hk hrd =>
    obtain ⟨j, m, mods', g1, g2, g3, g4⟩ := modifierLoop_modified r hmo h1 hn (mods := Modifiers.none) (st := st)
    rw [g3] at ho
    obtain ⟨m, rfl⟩ : ∃ k, m = k + 1 := ⟨m - 1, by omega⟩
    obtain ⟨j', e2, e3⟩ := modifierKeyword_at (m := .define) (by rw [hk]; simp) g1 rfl
    unfold modifierLoop at ho
    simp only [parseVariableAssignment_none r mods' st g1 hna, ok_bind, e2] at ho
    obtain ⟨rest, a, rfl, ha2⟩ := parseDefineHead_hard r hm e3 hrd ho
    exact ⟨_, _, rfl, fun hw => by rw [ha2]; exact g4 (.inl hw)⟩
  | undefine hmo hna hk =>
    obtain ⟨j, m, mods', g1, g2, g3, g4⟩ := modifierLoop_modified r hmo h1 hn (mods := Modifiers.none) (st := st)
    rw [g3] at ho
    obtain ⟨m, rfl⟩ : ∃ k, m = k + 1 := ⟨m - 1, by omega⟩
    obtain ⟨j', e2, e3⟩ := modifierKeyword_at (m := .undefine) (by rw [hk]; simp) g1 rfl
    unfold modifierLoop at ho
    simp only [parseVariableAssignment_none r mods' st g1 hna, ok_bind, e2] at ho
    cases ho

/-! ### Directives -/

/-- The directives that are not implemented. -/
def Directive.Unhandled : Directive → Prop
  | .include_ _ | .softInclude _ => False
  | _ => True

theorem parseDirectiveLine_hard (hm : Block.Mono P) {kw u : List LChar} (h : i.At P (kw ++ u))
    (hk : (textOf kw).map lower ∈ ["export".toList, "unexport".toList, "vpath".toList, "load".toList, "-load".toList]) :
    (∃ r d, parseDirectiveLine i = .ok (.done r d) ∧ d.Unhandled) ∨ ∃ k, parseDirectiveLine i = .ok (.err (.failure k)) := by
  have hasc : ∀ w ∈ directiveWords, AsciiS w ∧ w.map lower = w := by unfold AsciiS directiveWords; decide
  generalize hw : (textOf kw).map lower = w at hk
  have no : ∀ w' ∈ directiveWords, ¬ w' <+: w ∧ ¬ w <+: w' → Nom.tagNoCase w' i = .ok (.err (.error .code)) := by
    intro w' hw' n
    refine (Nom.tagNoCase_at h (hasc w' hw').1).2 fun hp => ?_
    rw [(hasc w' hw').2, textOf_append, List.map_append, hw] at hp
    exact not_prefix_append n.1 n.2 hp
  have yes : ∀ w' ∈ directiveWords, w' = w → ∀ f : Ast → Directive, (∀ a, (f a).Unhandled) → ∀ z : PRes Directive,
      (∃ r d, Res.orElse ((Nom.tagNoCase w' i).andThen fun i _ => (parseAst i).mapP f) z = .ok (.done r d) ∧ d.Unhandled) ∨
      ∃ k, Res.orElse ((Nom.tagNoCase w' i).andThen fun i _ => (parseAst i).mapP f) z = .ok (.err (.failure k)) := by
    intro w' hw' e f hf z
    obtain ⟨r, q, e1, e2, _⟩ := (Nom.tagNoCase_at h (hasc w' hw').1).1 (by
      rw [(hasc w' hw').2, textOf_append, List.map_append, hw, e]; exact List.prefix_append _ _)
    rw [e1, done_andThen]
    rcases parseAst_hard hm e2 with ⟨r', a, e3⟩ | ⟨k, e3⟩
    · rw [e3]
      exact .inl ⟨_, _, rfl, hf a⟩
    · rw [e3]
      exact .inr ⟨_, rfl⟩
  have yes' : ∀ w' ∈ directiveWords, w' = w → ∀ f : Ast → Directive, (∀ a, (f a).Unhandled) →
      (∃ r d, ((Nom.tagNoCase w' i).andThen fun i _ => (parseAst i).mapP f) = .ok (.done r d) ∧ d.Unhandled) ∨
      ∃ k, ((Nom.tagNoCase w' i).andThen fun i _ => (parseAst i).mapP f) = .ok (.err (.failure k)) := by
    intro w' hw' e f hf
    obtain ⟨r, q, e1, e2, _⟩ := (Nom.tagNoCase_at h (hasc w' hw').1).1 (by
      rw [(hasc w' hw').2, textOf_append, List.map_append, hw, e]; exact List.prefix_append _ _)
    rw [e1, done_andThen]
    rcases parseAst_hard hm e2 with ⟨r', a, e3⟩ | ⟨k, e3⟩
    · rw [e3]
      exact .inl ⟨_, _, rfl, hf a⟩
    · rw [e3]
      exact .inr ⟨_, rfl⟩
  have m : ∀ s : Str, s ∈ ["export".toList, "unexport".toList, "vpath".toList, "include".toList, "sinclude".toList,
      "-include".toList, "load".toList, "-load".toList] → s ∈ directiveWords := fun s hs => hs
  unfold parseDirectiveLine
  simp only [List.mem_cons, List.not_mem_nil, or_false] at hk
  rcases hk with rfl | rfl | rfl | rfl | rfl
  · exact yes _ (m _ (by simp)) rfl Directive.export_ (fun _ => trivial) _
  · simp only [no _ (m "export".toList (by simp)) (by decide), err_andThen, error_orElse]
    exact yes _ (m _ (by simp)) rfl Directive.unexport (fun _ => trivial) _
  · simp only [no _ (m "export".toList (by simp)) (by decide), no _ (m "unexport".toList (by simp)) (by decide), err_andThen,
      error_orElse]
    exact yes _ (m _ (by simp)) rfl Directive.vpath (fun _ => trivial) _
  · simp only [no _ (m "export".toList (by simp)) (by decide), no _ (m "unexport".toList (by simp)) (by decide),
      no _ (m "vpath".toList (by simp)) (by decide), no _ (m "include".toList (by simp)) (by decide),
      no _ (m "sinclude".toList (by simp)) (by decide), no _ (m "-include".toList (by simp)) (by decide), err_andThen,
      error_orElse]
    exact yes _ (m _ (by simp)) rfl Directive.load (fun _ => trivial) _
  · simp only [no _ (m "export".toList (by simp)) (by decide), no _ (m "unexport".toList (by simp)) (by decide),
      no _ (m "vpath".toList (by simp)) (by decide), no _ (m "include".toList (by simp)) (by decide),
      no _ (m "sinclude".toList (by simp)) (by decide), no _ (m "-include".toList (by simp)) (by decide),
      no _ (m "load".toList (by simp)) (by decide), err_andThen, error_orElse]
    exact yes' _ (m _ (by simp)) rfl Directive.softLoad (fun _ => trivial)

/-! ### Lines -/

theorem UnsupportedLine.keyword {line : List LChar} (h : UnsupportedLine line) : ∃ kw u, line = kw ++ u ∧
    (textOf kw).map lower ∈ ["export".toList, "override".toList, "private".toList, "undefine".toList, "unexport".toList,
      "vpath".toList, "load".toList, "-load".toList] := by
  have mod : ∀ {ws : List Str} {a b : List LChar}, Modified ws a b → ws ≠ [] → ∃ kw u, a = kw ++ u ∧
      (textOf kw).map lower ∈ ["export".toList, "override".toList, "private".toList, "undefine".toList, "unexport".toList,
        "vpath".toList, "load".toList, "-load".toList] := by
    intro ws a b hab hne
    cases hab with
    | nil => exact absurd rfl hne
    | cons hk =>
      refine ⟨_, _, rfl, ?_⟩
      simp only [List.mem_cons, List.not_mem_nil, or_false] at hk ⊢
      rcases hk with hk | hk | hk <;> simp [hk]
  cases h with
  | directive _ hk =>
    refine ⟨_, _, rfl, ?_⟩
    simp only [List.mem_cons, List.not_mem_nil, or_false] at hk ⊢
    rcases hk with hk | hk | hk | hk | hk <;> simp [hk]
  | var hv hne =>
    cases hv with
    | assign hmo => exact mod hmo hne
    | define hmo => exact mod hmo hne
    | @undefine ws _ kw u hmo _ hk =>
      cases hmo with
      | nil => exact ⟨kw, u, rfl, by rw [hk]; simp⟩
      | cons hk' => exact mod (.cons hk' ‹_› ‹_› ‹_› ‹_›) (by simp)

theorem UnsupportedLine.not_cond {line : List LChar} (h : UnsupportedLine line) : ¬ CondLike line := by
  obtain ⟨kw, u, rfl, hk⟩ := h.keyword
  intro hc
  have key : ∀ w ∈ condWords, ¬ w <+: (textOf (kw ++ u)).map lower := by
    intro w hw hp
    rw [textOf_append, List.map_append] at hp
    have hno : ∀ w ∈ condWords, ∀ s ∈ ["export".toList, "override".toList, "private".toList, "undefine".toList,
        "unexport".toList, "vpath".toList, "load".toList, "-load".toList], ¬ w <+: s ∧ ¬ s <+: w := by
      unfold condWords; decide
    exact not_prefix_append (hno w hw _ hk).1 (hno w hw _ hk).2 hp
  cases hc with
  | @word w hw hp =>
    refine key w ?_ hp
    revert hw
    unfold condWords
    simp only [List.mem_cons, List.not_mem_nil, or_false]
    rintro (rfl | rfl | rfl | rfl) <;> simp
  | @eq a b e hw _ =>
    have hin : (textOf a).map lower ∈ condWords := by
      revert hw
      generalize (textOf a).map lower = s
      unfold condWords
      simp only [List.mem_cons, List.not_mem_nil, or_false]
      rintro (rfl | rfl) <;> simp
    refine key _ hin ?_
    rw [e, textOf_append, List.map_append]
    exact List.prefix_append _ _

theorem UnsupportedLine.ne_nil {line : List LChar} (h : UnsupportedLine line) : line ≠ [] := by
  obtain ⟨kw, u, rfl, hk⟩ := h.keyword
  intro e
  rw [(List.append_eq_nil_iff.mp e).1] at hk
  revert hk
  decide

theorem UnsupportedLine.solid {line : List LChar} (h : UnsupportedLine line) : line.dropWhile lblank = line := by
  obtain ⟨kw, u, rfl, hk⟩ := h.keyword
  cases kw with
  | nil => exact absurd hk (by decide)
  | cons x kw =>
    refine List.dropWhile_cons_of_neg fun hx => ?_
    have : ∀ s ∈ ["export".toList, "override".toList, "private".toList, "undefine".toList, "unexport".toList,
      "vpath".toList, "load".toList, "-load".toList], s.head? ≠ some ' ' ∧ s.head? ≠ some '\t' := by decide
    obtain ⟨h1, h2⟩ := this _ hk
    rcases lblank_iff.mp hx with hx | hx
    · exact h1 (by simp [textOf, hx]; decide)
    · exact h2 (by simp [textOf, hx]; decide)

theorem parseLine_unsupported (fs : Fs) {p : PState} {st : St} {line rest : List LChar}
    (h : AtLine P i t line rest p st) (hr : p.currentRule = none ∨ (textOf t).head? ≠ some st.commandChar)
    (ha : p.ignoring = false) (hu : UnsupportedLine line)
    (r : Rec) (j : Span) (p' : PState) (st' : St) : parseLine fs r p st i ≠ .ok (.done j (), p', st') := by
  intro hp
  have hd := hu.solid
  obtain ⟨j, b, h1, h2, h3⟩ := parseCollapsed_statement fs h.at_ h.logical h.comment hu.ne_nil (by rw [hd]; exact hu.not_cond)
  have hat := h2.at
  have hbm := h2.mono h.pieces h.mono
  rw [parseLine_collapsed fs r h.at_ h.comment h.define h.command hr, h3, if_neg (by rw [ha]; decide)] at hp
  unfold parseStatement at hp
  obtain ⟨⟨o, st1⟩, k1, k2⟩ := Res.bind_eq_ok.mp hp
  cases hu with
  | var hv hne =>
    obtain ⟨rr, a, rfl, g2⟩ := parseVariableLine_hard r hbm hat (by rw [hd]; exact hv) k1
    obtain ⟨⟨p1, st2⟩, _, k3⟩ := Res.bind_eq_ok.mp k2
    obtain ⟨x, k4, _⟩ := Res.bind_eq_ok.mp k3
    have hf := g2 hne
    unfold handleVariableAction at k4
    unfold Modifiers.flagged at hf
    rw [if_pos (by rw [hf]; rfl)] at k4
    cases k4
  | directive hv hk =>
    obtain ⟨k, e⟩ := parseVariableLine_none r st hat (by rw [hd]; exact hv)
    rw [e] at k1
    cases k1
    rcases parseDirectiveLine_hard hbm hat hk with ⟨rr, d, e2, g2⟩ | ⟨k, e2⟩
    · simp only [e2, ok_bind] at k2
      obtain ⟨⟨p1, st2⟩, _, k3⟩ := Res.bind_eq_ok.mp k2
      obtain ⟨x, k4, _⟩ := Res.bind_eq_ok.mp k3
      cases d with
      | include_ => exact g2.elim
      | softInclude => exact g2.elim
      | _ => cases k4
    · rw [e2] at k2
      cases k2

/-! ### Targets -/

/-- The text after the targets, as it is put together. -/
theorem finish_slice {ln : Span} {after : Block} {at' lt cs ds : List LChar} {double : Bool}
    (hm : Block.Mono P) (hP : P.Solid) (hafter : Buf at' after) (hamono : at' ≠ [] → Block.Mono after) (hln : ln.At P lt)
    (hat : at' ++ lt = cs ++ ds) (hcs : textOf cs = if double then [':'] else []) (hd : (textOf ds).head? ≠ some ':') :
    ∃ b1 b2 slice, Block.empty.pushAll after.span = .ok b1 ∧ b1.pushAll ln = .ok b2 ∧ Block.Mono b2 ∧ slice.At b2 ds ∧
      (Nom.tag [':'] b2.span >>= fun
      | .done i _ => do
        let n ← usub b2.len 1
        return (i, true, n)
      | .err _ => .ok (b2.span, false, b2.len) : Res (Span × Bool × Nat)) = .ok (slice, double, ds.length) := by
  obtain ⟨b1, p1, p2, p3⟩ := Buf.empty.pushAll hafter.at hafter.solid
  obtain ⟨b2, q1, q2, q3⟩ := p2.pushAll hln hP
  rw [List.nil_append, hat] at q2
  have hm2 : Block.Mono b2 := q3 (p3 trivial hamono) (fun _ => hm)
  have hat3 := q2.at
  cases double with
  | true =>
    obtain ⟨j, q, e1, e2, _⟩ := (Nom.tag_at hat3 (w := [':']) (by unfold AsciiS; decide)).1 (by
      rw [textOf_append, hcs]; exact ⟨_, rfl⟩)
    have hl : cs.length = 1 := by rw [← textOf_length cs, hcs]; rfl
    refine ⟨b1, b2, j, p1, q1, hm2, ?_, ?_⟩
    · have : ([':'] : Str).length = cs.length := by rw [hl]; rfl
      rw [this, List.drop_left] at e2
      exact e2
    · rw [e1]
      simp only [ok_bind]
      rw [q2.len, List.length_append, hl]
      have : usub (1 + ds.length) 1 = .ok ds.length := by
        unfold usub
        rw [if_pos (by omega), Nat.add_sub_cancel_left]
      rw [this]
      rfl
  | false =>
    have hl : cs = [] := by
      have : cs.length = 0 := by rw [← textOf_length cs, hcs]; rfl
      exact List.length_eq_zero_iff.mp this
    subst hl
    rw [List.nil_append] at hat3
    have hmiss := tag_miss hat3 (w := [':']) (by unfold AsciiS; decide) (by
      rintro ⟨v, hv⟩
      rw [← hv] at hd
      exact hd rfl)
    refine ⟨b1, b2, b2.span, p1, q1, hm2, hat3, ?_⟩
    rw [hmiss]
    simp only [ok_bind]
    rw [q2.len, List.nil_append]

/-- Everything up to the end of the targets of a rule line. -/
theorem parseTargetLine_finish (fs : Fs) {L : Block} {line ts cs ds tt : List LChar} {double : Bool} {st : St} {vs : List Str}
    (hL : L.content.length ≤ 1) (hm : Block.Mono L) (h : L.span.At L line) (hnl : Free '\n' line) (hcom : Free '#' line)
    (hev : trailingSlashes (textOf line) % 2 = 0) (hline : line = ts ++ (cs ++ ds))
    (hT : TargetsExpand st.env ts tt vs) (hc : textOf cs = (if double then "::".toList else ":".toList))
    (hh : (textOf ds).head? ∉ [some ':', some '=']) (hds : ∀ x ∈ ds, x.1 ∉ [';', '#', '\\']) (hst : st.WF) :
    ∃ N rest pre after ln, ∃ b : Block, ∃ at' lt cs', Block.Mono b ∧ b.Solid ∧ Buf at' after ∧ (at' ≠ [] → Block.Mono after) ∧ ln.At b lt ∧
      at' ++ lt = cs' ++ ds ∧ (textOf cs' = if double then [':'] else []) ∧
      ∀ n, N ≤ n → parseTargetLine (recF fs n) L.span st = finishRule (recF fs n) rest pre after ln none (st.interned vs) := by
  obtain ⟨rest, L2, m1, _, m3, _⟩ := makefileLine_one (strip := false) h (grabSpec_eof hcom hnl) hev
  have hm2 := m3.mono hL hm
  have hat2 := m3.at
  subst hline
  have good : ∀ x ∈ ts ++ (cs ++ ds), x.1 ∉ [';', '#', '\\'] := by
    intro x hx
    rcases List.mem_append.mp hx with hx | hx
    · exact targets_chars hT x hx
    rcases List.mem_append.mp hx with hx | hx
    · have : x.1 ∈ textOf cs := mem_textOf.mpr ⟨x, hx, rfl⟩
      rw [hc] at this
      have : x.1 = ':' := by cases double <;> simpa using this
      rw [this]; decide
    · exact hds x hx
  have g1 : Free '\\' (ts ++ (cs ++ ds)) := fun x hx he => good x hx (by rw [he]; simp)
  have g2 : ∀ x ∈ ts ++ (cs ++ ds), (fun c => c == ';' || c == '#') x.1 = false := by
    intro x hx
    have := good x hx
    simp only [List.mem_cons, List.not_mem_nil, or_false, not_or] at this
    simp [this.1, this.2.1]
  obtain ⟨b, e1, e2⟩ := takeUntilUnquote_miss (fun c => c == ';' || c == '#') (by decide) (by decide) hat2 g1 g2
  have hb := e2.buf
  have hbm := e2.mono hm2
  simp only [List.mem_cons, List.not_mem_nil, or_false, not_or] at hh
  obtain ⟨N, r, m, reason, aft, ln, at', lt, w1, w2, _, ⟨w3, w4, w5, w6, _, w7⟩⟩ :=
    wordLoop_targets fs hT hc hh.2 hh.1 (by
      intro he
      cases ds with
      | nil => cases he
      | cons y ds =>
        simp only [textOf_cons, List.head?_cons, Option.some.injEq] at he
        exact hds y List.mem_cons_self (by rw [he]; decide)) none hst rfl (gap := []) (lineNext := b.span)
      (by intro x hx; cases hx) hb.at (.inl hbm)
  obtain ⟨l, cs', rfl, hcs'⟩ := colons_split hc
  obtain ⟨b0, mwt0, extra0, x1, x2, x3, x4⟩ := w7 N (b.len + 2) Block.empty [] (Nat.le_refl _) (by
    rw [hb.len]; simp; omega) Buf.empty
  refine ⟨N, rest, b0, aft, ln, b, at', lt, cs', hbm, hb.solid, w3, w4, w5, w6, hcs', fun n hn => ?_⟩
  have hloop := (wordLoop_le (recF_le fs hn) (b.len + 2) r m reason Block.empty none st).ok x1
  have pureBind : ∀ {α β : Type} (a : α) (f : α → Res β), ((pure a : Res α) >>= f) = f a := fun _ _ => rfl
  unfold parseTargetLine
  rw [m1]
  simp only [ok_bind, e1, pureBind]
  rw [w1]
  simp only [ok_bind]
  rcases w2 with rfl | rfl <;> simp only [hloop, ok_bind, if_neg x4, runwrap]

theorem finishRule_variable (r : Rec) {rest ln : Span} {pre after : Block} {at' lt cs ds : List LChar} {double : Bool}
    {st st' : St} {ws : List Str} {o : IRes TargetAction}
    (hm : Block.Mono P) (hP : P.Solid) (hafter : Buf at' after) (hamono : at' ≠ [] → Block.Mono after) (hln : ln.At P lt)
    (hat : at' ++ lt = cs ++ ds) (hcs : textOf cs = if double then [':'] else []) (hd : (textOf ds).head? ≠ some ':')
    (hv : VariableText ws (ds.dropWhile lblank)) (ho : finishRule r rest pre after ln none st = .ok (o, st')) :
    ∃ ts a, o = .done rest (.targetVariable ts a) := by
  obtain ⟨b1, b2, slice, e1, e2, e3, e4, e5⟩ := finish_slice hm hP hafter hamono hln hat hcs hd
  unfold finishRule at ho
  obtain ⟨targets, _, ho⟩ := Res.bind_eq_ok.mp ho
  simp only [e1, e2, ok_bind] at ho
  obtain ⟨x5, f5, ho⟩ := Res.bind_eq_ok.mp ho
  cases f5.symm.trans e5
  obtain ⟨⟨v, st1⟩, k1, k2⟩ := Res.bind_eq_ok.mp ho
  obtain ⟨rr, a, rfl, _⟩ := parseVariableLine_hard r e3 e4 hv k1
  cases k2
  exact ⟨_, _, rfl⟩

theorem hasSecondColon_mem : ∀ (n : Nat) {s : Str}, ':' ∈ s → '\\' ∉ s → n % 2 = 0 → hasSecondColon n s = true := by
  intro n s
  induction s generalizing n with
  | nil => intro h; cases h
  | cons c s ih =>
    intro h hb hn
    unfold hasSecondColon
    simp only [List.mem_cons, not_or] at hb
    rw [if_neg fun e => hb.1 e.symm]
    by_cases hc : c = ':'
    · rw [if_pos hc, if_pos hn]
    · rw [if_neg hc]
      rcases List.mem_cons.mp h with h | h
      · exact absurd h.symm hc
      · exact ih 0 h hb.2 rfl

theorem finishRule_pattern (fs : Fs) {rest ln : Span} {pre after : Block} {at' lt cs ds dt : List LChar} {double : Bool}
    {st : St} {us : List Str} {des : List Expr}
    (hm : Block.Mono P) (hP : P.Solid) (hafter : Buf at' after) (hamono : at' ≠ [] → Block.Mono after) (hln : ln.At P lt)
    (hat : at' ++ lt = cs ++ ds) (hcs : textOf cs = if double then [':'] else []) (hd : (textOf ds).head? ≠ some ':')
    (hv : ¬ VarLike (ds.dropWhile lblank)) (hst : st.WF) (hdr : Reads ds (.ok des)) (hde : Expands st.env des dt us)
    (hdt : ':' ∈ textOf dt) (hdt' : ∀ x ∈ dt, x.1 ∉ [';', '\\']) :
    ∃ N, ∀ n, N ≤ n → ∀ y, finishRule (recF fs n) rest pre after ln none st ≠ .ok y := by
  obtain ⟨b1, b2, slice, e1, e2, e3, e4, e5⟩ := finish_slice hm hP hafter hamono hln hat hcs hd
  have hpart : (slice.sliceTo ds.length).At b2 ds := by
    have h1 := e4.sliceTo (Nat.le_refl _)
    rwa [List.take_length] at h1
  obtain ⟨N, buf, d1, d2⟩ := expandSegment_at fs e3 hpart hdr hst hde
  have f1 : Free '\\' dt := fun x hx he => hdt' x hx (by rw [he]; simp)
  have f3 : Free ';' dt := fun x hx he => hdt' x hx (by rw [he]; simp)
  obtain ⟨pb, t1, t2⟩ := takeUntilUnquote_miss (· == ';') (by decide) (by decide) d1.at f1
    (fun x hx => by simpa using f3 x hx)
  have hcolon := hasSecondColon_mem 0 hdt (free_iff.mp f1) rfl
  refine ⟨N, fun n hn y ho => ?_⟩
  obtain ⟨kk, hvl⟩ := parseVariableLine_none (recF fs n) st e4 hv
  have hl : ¬ slice.length > ds.length := by rw [e4.length]; omega
  have pureBind : ∀ {α β : Type} (a : α) (f : α → Res β), ((pure a : Res α) >>= f) = f a := fun _ _ => rfl
  unfold finishRule at ho
  obtain ⟨targets, _, ho⟩ := Res.bind_eq_ok.mp ho
  simp only [e1, e2, ok_bind] at ho
  obtain ⟨x5, f5, ho⟩ := Res.bind_eq_ok.mp ho
  cases f5.symm.trans e5
  simp only [ok_bind, hvl, if_neg hl, d2 n hn, t1, pureBind, done_def] at ho
  rw [t2.buf.at.chars] at ho
  have hall : (⟨textOf dt, false⟩ : CStream).all = .ok (textOf dt) := rfl
  rw [hall] at ho
  simp only [ok_bind, hcolon, if_true] at ho
  cases ho

theorem parseLine_unsupportedTarget (fs : Fs) {line rest : List LChar} {p : PState} {st : St}
    (h : AtLine P i t line rest p st) (hr : p.currentRule = none ∨ (textOf t).head? ≠ some st.commandChar)
    (ha : p.ignoring = false) (h3 : Physical t line rest)
    (h4 : (textOf line).head? ≠ some st.commandChar) (h5 : ¬ CondLike line) (h6 : ¬ VarLike line) (h7 : ¬ DirectiveLike line)
    (hu : UnsupportedTarget st.env line) (n : Nat) (j : Span) (p' : PState) (st' : St) :
    parseLine fs (recF fs n) p st i ≠ .ok (.done j (), p', st') := by
  intro hp0
  obtain ⟨j1, b, e1, e2, e3, e4⟩ := makefileLine_physical h.at_ h3 h.comment
  have hat := e3.at
  have hbm := e3.mono h.pieces h.mono
  have hdrop : line.dropWhile lblank = line := by
    cases h3 with
    | mk _ _ hh _ _ => exact dropWhile_solid fun x hx => by simpa using fun hb => hh x hx (lblank_iff.mp hb)
  have hf := h.comment
  have hnl : Free '\n' line ∧ trailingSlashes (textOf line) % 2 = 0 ∧ Free '#' line := by
    cases h3 with
    | mk _ hl _ hl' _ => exact ⟨hl, hl', (Free.append.mp (Free.append.mp hf).2).1⟩
  have colonNe : ∀ {ts cs ds : List LChar} {double : Bool}, textOf cs = (if double then "::".toList else ":".toList) →
      ts ++ (cs ++ ds) ≠ [] := by
    intro ts cs ds double hc e
    have := (List.append_eq_nil_iff.mp (List.append_eq_nil_iff.mp e).2).1
    subst this
    cases double <;> cases hc
  have hne : line ≠ [] := by
    cases hu with
    | var _ hc => exact colonNe hc
    | pattern _ hc => exact colonNe hc
  have hlen : b.len ≠ 0 := by
    have := hat.length
    have e : b.span.length = b.len := rfl
    rw [← e, this]
    simpa using hne
  -- what is left to show
  suffices hs : ∃ N, ∀ n, N ≤ n → ∀ o st', parseTargetLine (recF fs n) b.span st = .ok (o, st') →
      ∃ rest ts a, o = .done rest (.targetVariable ts a) by
    obtain ⟨N, hN⟩ := hs
    have hp := (parseLine_le (recF_le fs (Nat.le_max_left n N)) fs p st i).ok hp0
    rw [parseLine_collapsed fs _ h.at_ hf h.define h.command hr] at hp
    obtain ⟨k, hv⟩ := parseVariableLine_none (recF fs (max n N)) st hat (by rw [hdrop]; exact h6)
    unfold parseCollapsed at hp
    simp only [e1, ok_bind, if_neg hlen, parseConditionalLine_none hat (by rw [hdrop]; exact h5),
      if_neg (show ¬ p.ignoring = true by rw [ha]; decide)] at hp
    unfold parseStatement at hp
    simp only [hv, ok_bind, parseDirectiveLine_none hat h7, Nom.firstChar_at hat, if_neg h4] at hp
    obtain ⟨⟨o, st1⟩, k1, k2⟩ := Res.bind_eq_ok.mp hp
    obtain ⟨rr, ts, a, rfl⟩ := hN _ (Nat.le_max_right n N) _ _ k1
    obtain ⟨⟨p1, st2⟩, _, k3⟩ := Res.bind_eq_ok.mp k2
    cases k3
  cases hu with
  | var hT hc hh hds hv =>
    obtain ⟨N, rest, pre, after, ln, b', at', lt, cs', m1, m2, m3, m4, m5, m6, m7, m8⟩ :=
      parseTargetLine_finish fs e4 hbm hat hnl.1 hnl.2.2 hnl.2.1 rfl hT hc hh hds h.wf
    refine ⟨N, fun n hn o st' ho => ?_⟩
    rw [m8 n hn] at ho
    obtain ⟨ts, a, e⟩ := finishRule_variable (recF fs n) m1 m2 m3 m4 m5 m6 m7 (fun e => hh (by rw [e]; simp)) hv ho
    exact ⟨_, _, _, e⟩
  | @pattern _ _ _ _ _ _ vs us des hT hc hh hds hv hdr hde hdt hdt' =>
    obtain ⟨N, rest, pre, after, ln, b', at', lt, cs', m1, m2, m3, m4, m5, m6, m7, m8⟩ :=
      parseTargetLine_finish fs e4 hbm hat hnl.1 hnl.2.2 hnl.2.1 rfl hT hc hh hds h.wf
    obtain ⟨M, hM⟩ := finishRule_pattern fs (rest := rest) (pre := pre) m1 m2 m3 m4 m5 m6 m7 (fun e => hh (by rw [e]; simp)) hv
      (h.wf.interned vs) hdr (by rw [h.wf.env_interned]; exact hde) hdt hdt'
    refine ⟨max N M, fun n hn o st' ho => ?_⟩
    rw [m8 n (by omega)] at ho
    exact absurd ho (hM n (by omega) _)

/-! ### Functions -/

theorem CallsFunction.append {a b : List Expr} (h : CallsFunction (a ++ b)) : CallsFunction a ∨ CallsFunction b := by
  cases h with
  | strip h => exact (List.mem_append.mp h).imp .strip .strip
  | word h => exact (List.mem_append.mp h).imp .word .word
  | words h => exact (List.mem_append.mp h).imp .words .words
  | name h hc => exact (List.mem_append.mp h).imp (fun h => .name h hc) (fun h => .name h hc)
  | eval h hc => exact (List.mem_append.mp h).imp (fun h => .eval h hc) (fun h => .eval h hc)

theorem not_calls_text {t : List LChar} : ¬ CallsFunction (Expr.text t) := by
  have key : ∀ {e : Expr}, e ∈ Expr.text t → ∃ x, e = .char x := by
    intro e he
    obtain ⟨x, _, rfl⟩ := List.mem_map.mp he
    exact ⟨x, rfl⟩
  intro h
  cases h with
  | strip h => obtain ⟨x, e⟩ := key h; cases e
  | word h => obtain ⟨x, e⟩ := key h; cases e
  | words h => obtain ⟨x, e⟩ := key h; cases e
  | name h => obtain ⟨x, e⟩ := key h; cases e
  | eval h => obtain ⟨x, e⟩ := key h; cases e

theorem evalInternal_calls (fs : Fs) (n : Nat) : ∀ (a : Ast) (st : St), CallsFunction a.flat →
    ∀ y, (recF fs n).evalInternal a st ≠ .ok y := by
  induction n with
  | zero => intro a st _ y h; cases h
  | succ n ih =>
    intro a st hc y h
    replace h : evalStep (recF fs n) a st = .ok y := h
    have sub : ∀ (c : Ast) (st : St), CallsFunction c.flat → ∀ y, (recF fs n).eval c st ≠ .ok y := by
      intro c st hc y h
      simp only [Rec.eval] at h
      obtain ⟨z, hz, _⟩ := Res.bind_eq_ok.mp h
      exact ih c st hc z hz
    have one : ∀ {e f : Expr}, e ∈ [f] → e = f := fun h => List.mem_singleton.mp h
    cases a with
    | empty l =>
      cases hc with
      | strip h => cases h
      | word h => cases h
      | words h => cases h
      | name h => cases h
      | eval h => cases h
    | constant l s => exact not_calls_text hc
    | preEvaluated l b => exact not_calls_text hc
    | concat l cs =>
      simp only [Ast.flat] at hc
      have key : ∀ (cs : List Ast) (sens : Sens) (out : List CRef) (st : St), CallsFunction (Ast.flatList cs) →
          ∀ y, evalConcat (recF fs n) cs sens out st ≠ .ok y := by
        intro cs
        induction cs with
        | nil =>
          intro sens out st hc
          cases hc with
          | strip h => cases h
          | word h => cases h
          | words h => cases h
          | name h => cases h
          | eval h => cases h
        | cons c cs ihc =>
          intro sens out st hc y h
          simp only [evalConcat] at h
          obtain ⟨⟨⟨s, cc⟩, st2⟩, h1, h2⟩ := Res.bind_eq_ok.mp h
          rcases hc.append with hc | hc
          · exact ih c st hc _ h1
          · exact ihc _ _ _ hc _ h2
      exact key cs [] [] st hc y h
    | varRef l name =>
      simp only [Ast.flat] at hc
      cases hc with
      | strip h => cases one h
      | word h => cases one h
      | words h => cases one h
      | eval h => cases one h
      | name hm hc =>
        cases one hm
        simp only [evalStep, evalVarRef] at h
        obtain ⟨z, hz, _⟩ := Res.bind_eq_ok.mp h
        exact sub _ st hc z hz
    | eval l b =>
      simp only [Ast.flat] at hc
      cases hc with
      | strip h => cases one h
      | word h => cases one h
      | words h => cases one h
      | name h => cases one h
      | eval hm hc =>
        cases one hm
        simp only [evalStep] at h
        obtain ⟨z, hz, _⟩ := Res.bind_eq_ok.mp h
        exact sub _ st hc z hz
    | strip l b => cases h
    | word l b c => cases h
    | words l b => cases h

/-- A variable whose value calls such a function, directly or through variables, is never evaluated successfully. -/
theorem calls_not_reached (fs : Fs) (m : Nat) (st : St) (x y : Str) (body : List Expr) (hst : st.WF) (hne : st.NoEval)
    (hxy : Relation.ReflTransGen (Refers st.env) x y) (hy : st.env y = some body) (hc : CallsFunction body) :
    ¬ Reached fs st x m := by
  induction hxy using Relation.ReflTransGen.head_induction_on generalizing m with
  | refl =>
    rintro ⟨st', v, p, z, hd, ⟨cs, hn⟩, hv, hp, hev⟩
    have henv := hst.env_after hd hn
    have hx : st.env y = some p.value.flat := by
      rw [← henv]
      simp only [St.env, hv, Option.bind_some, hd, hp, Option.map_some]
    rw [hx] at hy
    cases hy
    exact evalInternal_calls fs m p.value st' hc z hev
  | head h1 h2 ih =>
    rename_i w u
    rintro ⟨st', v, p, z, hd, ⟨cs, hn⟩, hv, hp, hev⟩
    have henv := hst.env_after hd hn
    have hx : st.env w = some p.value.flat := by
      rw [← henv]
      simp only [St.env, hv, Option.bind_some, hd, hp, Option.map_some]
    obtain ⟨b, hb, hm⟩ := h1
    rw [hx] at hb
    cases hb
    have hu : st.env u ≠ none := by
      rcases Relation.ReflTransGen.cases_head h2 with e | ⟨w', ⟨b', hb', _⟩, _⟩
      · rw [e, hy]; simp
      · rw [hb']; simp
    have hval : st.db.valueOf v = some p.value := by simp [Database.valueOf, hp]
    obtain ⟨k, hk1, hk2⟩ := reached_of_mentions fs m p.value st' z u (hst.values v p hp) (hst.after hd hn)
      (by unfold St.NoEval; rw [hd]; exact hne) (hne v _ hval) hev (by rw [henv]; exact hm) (by rw [henv]; exact hu)
    exact ih k (hk2.mono hd hn)

/-- A variable whose value calls such a function, directly or through variables and substitution references, is never evaluated successfully. -/
theorem calls_not_reached_uses (fs : Fs) (m : Nat) (st : St) (x y : Str) (body : List Expr) (hst : st.WF) (hwn : st.WholeNames) (hne : st.NoEval)
    (hxy : Relation.ReflTransGen (RefersTo st.env) x y) (hy : st.env y = some body) (hc : CallsFunction body) :
    ¬ Reached fs st x m := by
  induction hxy using Relation.ReflTransGen.head_induction_on generalizing m with
  | refl =>
    rintro ⟨st', v, p, z, hd, ⟨cs, hn⟩, hv, hp, hev⟩
    have henv := hst.env_after hd hn
    have hx : st.env y = some p.value.flat := by
      rw [← henv]
      simp only [St.env, hv, Option.bind_some, hd, hp, Option.map_some]
    rw [hx] at hy
    cases hy
    exact evalInternal_calls fs m p.value st' hc z hev
  | head h1 h2 ih =>
    rename_i w u
    rintro ⟨st', v, p, z, hd, ⟨cs, hn⟩, hv, hp, hev⟩
    have henv := hst.env_after hd hn
    have hx : st.env w = some p.value.flat := by
      rw [← henv]
      simp only [St.env, hv, Option.bind_some, hd, hp, Option.map_some]
    obtain ⟨b, hb, hm⟩ := h1
    rw [hx] at hb
    cases hb
    have hu : st.env u ≠ none := by
      rcases Relation.ReflTransGen.cases_head h2 with e | ⟨w', ⟨b', hb', _⟩, _⟩
      · rw [e, hy]; simp
      · rw [hb']; simp
    have hval : st.db.valueOf v = some p.value := by simp [Database.valueOf, hp]
    obtain ⟨k, hk1, hk2⟩ := reached_of_uses fs m p.value st' z u (hst.values v p hp) (hwn v _ hval) (hst.after hd hn)
      (by unfold St.NoEval; rw [hd]; exact hne) (hne v _ hval) hev (by rw [henv]; exact hm) (by rw [henv]; exact hu)
    exact ih k (hk2.mono hd hn)

end Hastur
