import Verif.Proofs.RelocateRun
/-
Lines of makefiles in states that mean the same.
-/
namespace Hastur

open Res Span

variable {g : Location → Location}

/-! ### Parser states -/

theorem Like.conds {p p' : PState} (h : Like g p p') : p.conditionals = p'.conditionals :=
  (congrArg PState.conditionals h : (rl g p).conditionals = (rl g p').conditionals)

theorem Like.ignoring {p p' : PState} (h : Like g p p') : p.ignoring = p'.ignoring :=
  (congrArg PState.ignoring h : (rl g p).ignoring = (rl g p').ignoring)

theorem Like.rule {p p' : PState} (h : Like g p p') : Like g p.currentRule p'.currentRule :=
  (congrArg PState.currentRule h : (rl g p).currentRule = (rl g p').currentRule)

theorem Like.defn {p p' : PState} (h : Like g p p') : p.currentDefine = p'.currentDefine :=
  (congrArg PState.currentDefine h : (rl g p).currentDefine = (rl g p').currentDefine)

theorem Like.pstate {c c' : List CondState} {i i' : Bool} {r r' : Option ProtoRule} {d d' : Option DefineState} (hc : c = c')
    (hi : i = i') (hr : Like g r r') (hd : d = d') : Like g (PState.mk c i r d) (PState.mk c' i' r' d') := by
  subst hc hi hd
  show PState.mk c i (rl g r) d = PState.mk c i (rl g r') d
  rw [hr]

theorem Like.proto {t t' d d' : List Block} {r r' : List Ast} (ty : RuleType) (ht : Like g t t') (hd : Like g d d')
    (hr : Like g r r') : Like g (ProtoRule.mk t d r ty) (ProtoRule.mk t' d' r' ty) := by
  show ProtoRule.mk (rl g t) (rl g d) (rl g r) ty = ProtoRule.mk (rl g t') (rl g d') (rl g r') ty
  rw [ht, hd, hr]

theorem pushCommandLine_same {p p' : PState} {a a' : Ast} (hp : Like g p p') (ha : Like g a a') :
    Like g (p.pushCommandLine a) (p'.pushCommandLine a') := by
  unfold PState.pushCommandLine
  have h := hp.rule
  cases h1 : p.currentRule <;> cases h2 : p'.currentRule <;> rw [h1, h2] at h
  · rfl
  · cases h
  · cases h
  · rename_i q q'
    have hq := h.some_inj
    refine congrArg Res.ok (Like.pstate hp.conds hp.ignoring (Like.some ?_) hp.defn)
    have e1 : rl g q.targets = rl g q'.targets := congrArg ProtoRule.targets hq
    have e2 : rl g q.deps = rl g q'.deps := congrArg ProtoRule.deps hq
    have e3 : rl g q.recipe = rl g q'.recipe := congrArg ProtoRule.recipe hq
    have e4 : q.ruleType = q'.ruleType := (congrArg ProtoRule.ruleType hq : (rl g q).ruleType = (rl g q').ruleType)
    rw [← e4]
    exact Like.proto _ e1 e2 (Like.append e3 (Like.one ha))

theorem closeRule_same {p p' : PState} {st st' : St} (hp : Like g p p') (hs : StRel g st st') :
    SameOutcome (Out g) (p.closeRule st) (p'.closeRule st') := by
  unfold PState.closeRule
  have h := hp.rule
  cases h1 : p.currentRule <;> cases h2 : p'.currentRule <;> rw [h1, h2] at h
  · exact ⟨hp, hs⟩
  · cases h
  · cases h
  · refine SameOutcome.bind (fromProtorule_same hs h.some_inj) ?_
    rintro ⟨db, n⟩ ⟨db', n'⟩ hst
    exact ⟨Like.pstate hp.conds hp.ignoring rfl hp.defn, hst⟩

/-! ### Variables -/

theorem Like.astLocation {a a' : Ast} (h : Like g a a') : g a.location = g a'.location := by
  rw [← Ast.location_rl (g := g), h, Ast.location_rl]

theorem handleVariableAction_same [Moves g] {p p' : PState} {st st' : St} {a a' : VarAction} (hp : Like g p p')
    (hs : StRel g st st') (ha : Like g a a') :
    SameOutcome (Out g) (handleVariableAction p st a) (handleVariableAction p' st' a') := by
  have e1 : a.name = a'.name := (congrArg VarAction.name ha : (rl g a).name = (rl g a').name)
  have e2 : a.modifiers = a'.modifiers := (congrArg VarAction.modifiers ha : (rl g a).modifiers = (rl g a').modifiers)
  have e3 : Like g a.action a'.action := congrArg VarAction.action ha
  unfold handleVariableAction
  rw [e1, e2]
  refine SameOutcome.ite Iff.rfl rfl ?_
  refine SameOutcome.bindR (α := PState) (g := g) ?_ ?_
  · split
    · rw [hp.defn]
      cases p'.currentDefine
      · exact congrArg Res.ok (Like.pstate hp.conds hp.ignoring hp.rule rfl)
      · rfl
    · exact congrArg Res.ok hp
  · intro p p' hp
    cases h1 : a.action <;> cases h2 : a'.action <;> rw [h1, h2] at e3
    · exact ⟨hp, hs.setVariable _ (VarActionKind.define.inj e3)⟩
    · cases e3
    · cases e3
    · have hn := VarActionKind.append.inj e3
      exact ⟨hp, hs.appendToVariable _ (Like.astLocation hn) (VarParams.rl_mk _ _ hn) true⟩

theorem handleDefineLine_same [Moves g] {p p' : PState} {st st' : St} {l l' : DefineLine} (hp : Like g p p')
    (hs : StRel g st st') (hl : Like g l l') :
    SameOutcome (Out g) (handleDefineLine p st l) (handleDefineLine p' st' l') := by
  have e1 : Like g l.content l'.content := congrArg DefineLine.content hl
  have e2 : l.action = l'.action := (congrArg DefineLine.action hl : (rl g l).action = (rl g l').action)
  have e3 : g l.location = g l'.location := congrArg DefineLine.location hl
  unfold handleDefineLine
  rw [hp.defn, e2]
  refine SameOutcome.bindEq rfl fun d => ?_
  have key : ∀ n, Out g (({ p with currentDefine := some { d with nesting := n } } : PState),
      ({ st with db := st.db.appendToVariable d.var l.location ⟨l.content, .recursive, .file⟩ false } : St))
      (({ p' with currentDefine := some { d with nesting := n } } : PState),
      ({ st' with db := st'.db.appendToVariable d.var l'.location ⟨l'.content, .recursive, .file⟩ false } : St)) := fun n =>
    ⟨Like.pstate hp.conds hp.ignoring hp.rule rfl, hs.appendToVariable _ e3 (VarParams.rl_mk _ _ e1) false⟩
  cases l'.action
  · exact key _
  · exact key _
  · refine SameOutcome.bindEq rfl fun n => ?_
    refine SameOutcome.ite Iff.rfl ?_ ?_
    · exact ⟨Like.pstate hp.conds hp.ignoring hp.rule rfl, hs⟩
    · exact key _

theorem Like.varAction (v : VariableName) (m : Modifiers) {k k' : VarActionKind} (h : Like g k k') :
    Like g (VarAction.mk v m k) (VarAction.mk v m k') := by
  show VarAction.mk v m (rl g k) = VarAction.mk v m (rl g k')
  rw [h]

theorem Like.define {p p' : VarParams} (h : Like g p p') : Like g (VarActionKind.define p) (.define p') :=
  congrArg VarActionKind.define h

theorem Like.appendKind {p p' : Ast} (h : Like g p p') : Like g (VarActionKind.append p) (.append p') :=
  congrArg VarActionKind.append h

variable [Moves g] {r r' : Rec} (hr : RecSim g r r')
include hr

theorem evalName_same {a a' : Ast} {st st' : St} (ha : Like g a a') (hs : StRel g st st') :
    SameOutcome (fun x x' => x.1 = x'.1 ∧ StRel g x.2 x'.2) (evalName r a st) (evalName r' a' st') := by
  unfold evalName
  refine SameOutcome.bindO (hr.evalBlock ha hs) ?_
  intro b b' st st' hb hst
  refine SameOutcome.bindEq (intoString_congr hb) fun s => ?_
  exact hst.internVar (trim s)

theorem parseVariableAssignment_same (mods : Modifiers) {i i' : Span} {st st' : St} (hi : Like g i i') (hs : StRel g st st') :
    SameOutcome (Out g) (parseVariableAssignment r mods i st) (parseVariableAssignment r' mods i' st') := by
  unfold parseVariableAssignment
  refine SameOutcome.bindP (rl_congr (f := splitAssignment) splitAssignment_rl hi) ?_ ?_
  · rintro j j' ⟨ty, n, v, va⟩ ⟨ty', n', v', va'⟩ hj ht
    obtain ⟨h1, h2⟩ := ht.pair_inj
    obtain ⟨h2, h3⟩ := h2.pair_inj
    obtain ⟨h3, h4⟩ := h3.pair_inj
    obtain rfl : ty = ty' := h1
    refine SameOutcome.bind (evalName_same hr h2 hs) ?_
    rintro ⟨x, st⟩ ⟨_, st'⟩ ⟨rfl, hst⟩
    dsimp only at hst
    cases ty
    · exact ⟨Like.done hj (Like.varAction _ _ (Like.define (VarParams.rl_mk _ _ h4))), hst⟩
    · exact ⟨Like.done hj (Like.varAction _ _ (Like.define (VarParams.rl_mk _ _ h4))), hst⟩
    · refine SameOutcome.bindO (hr.evalBlock h4 hst) ?_
      intro b b' st st' hb hst
      refine SameOutcome.bindR (rl_congr (f := Span.location) Span.location_rl h3) fun l l' hl => ?_
      refine SameOutcome.bindR hl.unwrap fun l l' hl => ?_
      refine ⟨Like.done hj (Like.varAction _ _ (Like.define (VarParams.rl_mk _ _ ?_))), hst⟩
      show rl g _ = rl g _
      have hl' : g l = g l' := hl
      rw [← Ast.preEvaluated_rl, ← Ast.preEvaluated_rl, hb, hl']
    · exact ⟨Like.done hj (Like.varAction _ _ (Like.appendKind h4)), hst⟩
    · exact ⟨Like.done hj (Like.varAction _ _ (Like.define (VarParams.rl_mk _ _ h4))), hst⟩
  · intro e
    exact ⟨rfl, hs⟩

omit hr [Moves g] in
theorem defineWholeName_same (mods : Modifiers) {i i' : Span} {st st' : St} (hi : Like g i i') (hs : StRel g st st') :
    SameOutcome (Out g) (defineWholeName mods i st) (defineWholeName mods i' st') := by
  unfold defineWholeName
  refine SameOutcome.bindEq (rl_const (f := Span.intoString) Span.intoString_rl hi) fun s => ?_
  obtain ⟨e, h⟩ := hs.internVar (trim s)
  dsimp only
  rw [hi.spanLen]
  refine SameOutcome.bindR (hi.sliceFrom _) fun j j' hj => ?_
  refine ⟨?_, h⟩
  rw [e]
  exact Like.done hj rfl

theorem parseDefineHead_same (mods : Modifiers) {i i' : Span} {st st' : St} (hi : Like g i i') (hs : StRel g st st') :
    SameOutcome (Out g) (parseDefineHead r mods i st) (parseDefineHead r' mods i' st') := by
  unfold parseDefineHead
  have hp : Like g ((parseAssignmentOperator i).andThen fun suffix (x : Span × AssignType) =>
        (whitespace suffix).andThen fun trailing _ => done trailing (x.1, x.2))
      ((parseAssignmentOperator i').andThen fun suffix (x : Span × AssignType) =>
        (whitespace suffix).andThen fun trailing _ => done trailing (x.1, x.2)) := by
    refine rl_congr (f := fun i => (parseAssignmentOperator i).andThen fun suffix (x : Span × AssignType) =>
        (whitespace suffix).andThen fun trailing _ => done trailing (x.1, x.2)) (fun i => ?_) hi
    refine andThen_rl (parseAssignmentOperator_rl i) fun j x => ?_
    exact andThen_rl (whitespace_rl j) fun k _ => rfl
  refine SameOutcome.bindP hp ?_ ?_
  · rintro t t' ⟨n, ty⟩ ⟨n', ty'⟩ ht hn
    obtain ⟨h1, h2⟩ := hn.pair_inj
    obtain rfl : ty = ty' := h2
    refine SameOutcome.ite (by rw [ht.spanLen]) ?_ (defineWholeName_same mods hi hs)
    refine SameOutcome.bindP h1.ast ?_ ?_
    · intro _ _ a a' _ ha
      refine SameOutcome.bind (evalName_same hr ha hs) ?_
      rintro ⟨x, st⟩ ⟨_, st'⟩ ⟨rfl, hst⟩
      exact ⟨Like.done ht rfl, hst⟩
    · intro e
      exact ⟨rfl, hs⟩
  · intro e
    exact defineWholeName_same mods hi hs

theorem modifierLoop_same (n : Nat) : ∀ (mods : Modifiers) (i i' : Span) (st st' : St), Like g i i' → StRel g st st' →
    SameOutcome (Out g) (modifierLoop r n mods i st) (modifierLoop r' n mods i' st') := by
  induction n with
  | zero => intros; trivial
  | succ n ih =>
    intro mods i i' st st' hi hs
    unfold modifierLoop
    refine SameOutcome.bindPO (parseVariableAssignment_same hr mods hi hs) ?_ ?_
    · intro j j' a a' st st' hj ha hst
      exact ⟨Like.done hj ha, hst⟩
    · intro e st st' hst
      have key : SameOutcome (Out g)
          (modifierKeyword i >>= fun
            | .err _ => pure (.err (.error (.custom (.internalFailure "not an assignment".toList))), st)
            | .done i m =>
              match m with
              | .export_ => modifierLoop r n { mods with export_ := true } i st
              | .override_ => modifierLoop r n { mods with override_ := true } i st
              | .private_ => modifierLoop r n { mods with private_ := true } i st
              | .define => parseDefineHead r { mods with define := true } i st
              | .undefine => .panic .unimplemented)
          (modifierKeyword i' >>= fun
            | .err _ => pure (.err (.error (.custom (.internalFailure "not an assignment".toList))), st')
            | .done i m =>
              match m with
              | .export_ => modifierLoop r' n { mods with export_ := true } i st'
              | .override_ => modifierLoop r' n { mods with override_ := true } i st'
              | .private_ => modifierLoop r' n { mods with private_ := true } i st'
              | .define => parseDefineHead r' { mods with define := true } i st'
              | .undefine => .panic .unimplemented) := by
        refine SameOutcome.bindP (rl_congr (f := modifierKeyword) modifierKeyword_rl hi) ?_ ?_
        · intro j j' m m' hj hm
          obtain rfl : m = m' := hm
          cases m
          · exact ih _ _ _ _ _ hj hst
          · exact ih _ _ _ _ _ hj hst
          · exact ih _ _ _ _ _ hj hst
          · exact parseDefineHead_same hr _ hj hst
          · rfl
        · intro e
          exact ⟨rfl, hst⟩
      cases e with
      | error k => cases k with
        | custom q => cases q <;> first | exact key | exact ⟨rfl, hst⟩
        | _ => exact key
      | failure k => cases k with
        | custom q => cases q <;> first | exact key | exact ⟨rfl, hst⟩
        | _ => exact key

theorem parseVariableLine_same {i i' : Span} {st st' : St} (hi : Like g i i') (hs : StRel g st st') :
    SameOutcome (Out g) (parseVariableLine r i st) (parseVariableLine r' i' st') := by
  unfold parseVariableLine
  refine SameOutcome.bindP hi.white ?_ ?_
  · intro j j' _ _ hj _
    dsimp only
    rw [hj.spanLen]
    refine SameOutcome.ite Iff.rfl ⟨rfl, hs⟩ (modifierLoop_same hr _ _ _ _ _ _ hj hs)
  · intro e
    exact ⟨rfl, hs⟩

/-! ### Conditionals -/

theorem handleIfeq_same {p p' : PState} {st st' : St} {a a' b b' : Ast} (inv : Bool) (hp : Like g p p') (hs : StRel g st st')
    (ha : Like g a a') (hb : Like g b b') :
    SameOutcome (Out3 g) (handleIfeq r p st a b inv) (handleIfeq r' p' st' a' b' inv) := by
  unfold handleIfeq
  refine SameOutcome.bindO (hr.evalBlock ha hs) ?_
  intro x x' st st' hx hst
  refine SameOutcome.bindO (hr.evalBlock hb hst) ?_
  intro y y' st st' hy hst
  refine SameOutcome.bindEq (intoString_congr hx) fun s => ?_
  refine SameOutcome.bindEq (intoString_congr hy) fun t => ?_
  refine ⟨rfl, ?_, hst⟩
  exact Like.pstate (by rw [hp.conds]) (by rw [hp.conds]) hp.rule hp.defn

theorem handleConditional_same {p p' : PState} {st st' : St} {c c' : Conditional} (hp : Like g p p') (hs : StRel g st st')
    (hc : Like g c c') : SameOutcome (Out3 g) (handleConditional r p st c) (handleConditional r' p' st' c') := by
  have hc' : Conditional.mapLoc g c = Conditional.mapLoc g c' := hc
  have hce := hp.conds
  match c, c', hc' with
  | .ifEq a b, .ifEq a' b', h =>
    simp only [Conditional.mapLoc, Conditional.ifEq.injEq] at h
    exact handleIfeq_same hr false hp hs h.1 h.2
  | .ifNEq a b, .ifNEq a' b', h =>
    simp only [Conditional.mapLoc, Conditional.ifNEq.injEq] at h
    exact handleIfeq_same hr true hp hs h.1 h.2
  | .else_ none, .else_ none, _ =>
    simp only [handleConditional]
    rw [hce]
    cases p'.conditionals.getLast? with
    | none => exact ⟨rfl, hp, hs⟩
    | some top =>
      refine SameOutcome.ite Iff.rfl ⟨rfl, hp, hs⟩ ⟨rfl, ?_, hs⟩
      exact Like.pstate rfl rfl hp.rule hp.defn
  | .else_ (some _), .else_ (some _), _ => rfl
  | .endIf, .endIf, _ =>
    simp only [handleConditional]
    rw [hce]
    refine SameOutcome.ite Iff.rfl ⟨rfl, hp, hs⟩ ⟨rfl, ?_, hs⟩
    exact Like.pstate rfl hp.ignoring hp.rule hp.defn
  | .ifDef _, .ifDef _, _ => rfl
  | .ifNDef _, .ifNDef _, _ => rfl
  | .ifEq .., .ifNEq .., h | .ifEq .., .else_ none, h | .ifEq .., .else_ (some _), h | .ifEq .., .endIf, h
  | .ifEq .., .ifDef _, h | .ifEq .., .ifNDef _, h
  | .ifNEq .., .ifEq .., h | .ifNEq .., .else_ none, h | .ifNEq .., .else_ (some _), h | .ifNEq .., .endIf, h
  | .ifNEq .., .ifDef _, h | .ifNEq .., .ifNDef _, h
  | .else_ none, .ifEq .., h | .else_ none, .ifNEq .., h | .else_ none, .else_ (some _), h | .else_ none, .endIf, h
  | .else_ none, .ifDef _, h | .else_ none, .ifNDef _, h
  | .else_ (some _), .ifEq .., h | .else_ (some _), .ifNEq .., h | .else_ (some _), .else_ none, h
  | .else_ (some _), .endIf, h | .else_ (some _), .ifDef _, h | .else_ (some _), .ifNDef _, h
  | .endIf, .ifEq .., h | .endIf, .ifNEq .., h | .endIf, .else_ none, h | .endIf, .else_ (some _), h
  | .endIf, .ifDef _, h | .endIf, .ifNDef _, h
  | .ifDef _, .ifEq .., h | .ifDef _, .ifNEq .., h | .ifDef _, .else_ none, h | .ifDef _, .else_ (some _), h
  | .ifDef _, .endIf, h | .ifDef _, .ifNDef _, h
  | .ifNDef _, .ifEq .., h | .ifNDef _, .ifNEq .., h | .ifNDef _, .else_ none, h | .ifNDef _, .else_ (some _), h
  | .ifNDef _, .endIf, h | .ifNDef _, .ifDef _, h => simp [Conditional.mapLoc] at h

/-! ### Targets -/

theorem expandSegment_same {i i' : Span} {st st' : St} (hi : Like g i i') (hs : StRel g st st') :
    SameOutcome (Out g) (expandSegment r i st) (expandSegment r' i' st') := by
  unfold expandSegment
  refine SameOutcome.bindP hi.ast ?_ ?_
  · intro _ _ a a' _ ha
    refine SameOutcome.bindO (hr.evalBlock ha hs) ?_
    intro b b' st st' hb hst
    exact ⟨Like.ok hb, hst⟩
  · intro e
    exact ⟨rfl, hs⟩

theorem semicolonInWord_same {c c' : Block} {l l' : Span} {p p' : Option Block} {st st' : St} (hc : Like g c c')
    (hl : Like g l l') (hp : Like g p p') (hs : StRel g st st') :
    SameOutcome (Out g) (semicolonInWord r c l p st) (semicolonInWord r' c' l' p' st') := by
  unfold semicolonInWord
  cases p <;> cases p'
  · refine SameOutcome.bindOpt (hc.span.unquote _) ?_ ?_
    · rintro a a' ⟨x, y⟩ ⟨x', y'⟩ ha hxy
      obtain ⟨-, hy⟩ := hxy.pair_inj
      refine SameOutcome.bindR hy.newBlock fun b b' hb => ?_
      refine SameOutcome.bindE (expandSegment_same hr hl hs) ?_ ?_
      · intro d d' st st' hd hst
        refine SameOutcome.bindR (hb.pushAll hd.span) fun q q' hq => ?_
        rw [hl.spanLen]
        refine SameOutcome.bindR (hl.sliceFrom _) fun k k' hk => ?_
        exact ⟨Like.ok (Like.pair ha (Like.pair hk hq.some)), hst⟩
      · intro e st st' hst
        exact ⟨rfl, hst⟩
    · intro a a' ha
      exact ⟨Like.ok (Like.pair hc (Like.pair hl rfl)), hs⟩
  · cases hp
  · cases hp
  · exact ⟨Like.ok (Like.pair hc (Like.pair hl hp)), hs⟩

omit hr in
theorem pushWord_like {a a' b b' : Block} (ha : Like g a a') (hb : Like g b b') : Like g (pushWord a b) (pushWord a' b') := by
  show rl g _ = rl g _
  rw [← pushWord_rl, ← pushWord_rl, ha, hb]

omit hr [Moves g] in
theorem Like.finished {p p' : Block} {a a' : Option Block} {l l' : Span} {s s' : Option Block} (m : MWordEnd) (hp : Like g p p')
    (ha : Like g a a') (hl : Like g l l') (hs : Like g s s') :
    Like g (WordLoop.finished p a l s m) (WordLoop.finished p' a' l' s' m) := by
  show WordLoop.finished (rl g p) (rl g a) (rl g l) (rl g s) m = WordLoop.finished (rl g p') (rl g a') (rl g l') (rl g s') m
  rw [hp, ha, hl, hs]

theorem wordLoop_same (n : Nat) : ∀ (l l' w w' : Span) (m : MWordEnd) (c c' : Block) (s s' : Option Block) (st st' : St),
    Like g l l' → Like g w w' → Like g c c' → Like g s s' → StRel g st st' →
    SameOutcome (Out g) (wordLoop r n l w m c s st) (wordLoop r' n l' w' m c' s' st') := by
  induction n with
  | zero => intros; trivial
  | succ n ih =>
    intro l l' w w' m c c' s s' st st' hl hw hc hps hs
    unfold wordLoop
    refine SameOutcome.bindE (expandSegment_same hr hw hs) ?_ ?_
    · intro b b' st st' hb hst
      refine SameOutcome.bindE (semicolonInWord_same hr hb hl hps hst) ?_ ?_
      · rintro ⟨b, l, s⟩ ⟨b', l', s'⟩ st st' h hst
        obtain ⟨hb, h⟩ := h.pair_inj
        obtain ⟨hl, hps⟩ := h.pair_inj
        refine SameOutcome.ite (by rw [hb.blockLen]) ⟨rfl, hst⟩ ?_
        refine SameOutcome.bindOpt (rl_congr (f := findNonDrivespecColon) findNonDrivespecColon_rl hb.span) ?_ ?_
        · intro pre pre' post post' hpre hpost
          refine SameOutcome.bindR hpost.newBlock fun x x' hx => ?_
          refine SameOutcome.bindR (pushWord_like hc hpre) fun y y' hy => ?_
          exact ⟨Like.finished _ hy hx.some hl hps, hst⟩
        · intro pre pre' hpre
          refine SameOutcome.bindP (rl_congr (f := nextMword) nextMword_rl hl) ?_ ?_
          · rintro j j' ⟨w, m⟩ ⟨w', m'⟩ hj hwm
            obtain ⟨hw, hm⟩ := hwm.pair_inj
            obtain rfl : m = m' := hm
            refine SameOutcome.ite Iff.rfl ⟨Like.finished _ hc rfl hj hps, hst⟩ ?_
            refine SameOutcome.bindR (pushWord_like hc hpre) fun y y' hy => ?_
            exact ih _ _ _ _ _ _ _ _ _ _ _ hj hw hy hps hst
          · intro e
            exact ⟨rfl, hst⟩
      · intro e st st' hst
        exact ⟨rfl, hst⟩
    · intro e st st' hst
      exact ⟨rfl, hst⟩

omit hr [Moves g] in
theorem Like.tag (t : Str) {i i' : Span} (h : Like g i i') : Like g (Nom.tag t i) (Nom.tag t i') :=
  rl_congr (f := Nom.tag t) (Nom.tag_rl t) h

omit hr [Moves g] in
theorem Like.newRule {t t' d d' : List Block} {c c' : Option Ast} (x : Bool) (ht : Like g t t') (hd : Like g d d')
    (hc : Like g c c') : Like g (TargetAction.newRule t d x c) (TargetAction.newRule t' d' x c') := by
  show TargetAction.newRule (rl g t) (rl g d) x (rl g c) = TargetAction.newRule (rl g t') (rl g d') x (rl g c')
  rw [ht, hd, hc]

omit hr [Moves g] in
theorem Like.targetVariable {t t' : List Block} {c c' : VarAction} (ht : Like g t t') (hc : Like g c c') :
    Like g (TargetAction.targetVariable t c) (TargetAction.targetVariable t' c') := by
  show TargetAction.targetVariable (rl g t) (rl g c) = TargetAction.targetVariable (rl g t') (rl g c')
  rw [ht, hc]

end Hastur
