import Verif.Proofs.RelocateLines
/-
Whole makefiles in states that mean the same.
-/
namespace Hastur

open Res Span

variable {g : Location → Location}
variable [Moves g] {r r' : Rec} (hr : RecSim g r r')
include hr

theorem finishRule_same {rest rest' : Span} {pre pre' after after' : Block} {l l' : Span} {s s' : Option Block} {st st' : St}
    (hrest : Like g rest rest') (hpre : Like g pre pre') (hafter : Like g after after') (hl : Like g l l')
    (hsemi : Like g s s') (hs : StRel g st st') :
    SameOutcome (Out g) (finishRule r rest pre after l s st) (finishRule r' rest' pre' after' l' s' st') := by
  unfold finishRule
  refine SameOutcome.bindR (hpre.span.fileSeq []) fun ts ts' hts => ?_
  refine SameOutcome.bindR (Like.pushAll (b := Block.empty) rfl hafter.span) fun b b' hb => ?_
  refine SameOutcome.bindR (hb.pushAll hl) fun b b' hb => ?_
  dsimp only
  rw [hb.blockLen]
  refine SameOutcome.bindR (α := Block) (g := g) ?_ ?_
  · cases s <;> cases s'
    · exact congrArg Res.ok hb
    · cases hsemi
    · cases hsemi
    · exact (hb.push rfl).pushAll (Like.some_inj hsemi).span
  intro c c' hc
  refine SameOutcome.bindR (α := Span × Bool × Nat) (g := g) ?_ ?_
  · have ht := Like.tag [':'] hc.span
    have := SameOutcome.bindP (S := fun (x x' : Span × Bool × Nat) => Like g x x') ht
      (f := fun
        | .done i _ => do
          let n ← usub b'.len 1
          return (i, true, n)
        | .err _ => .ok (c.span, false, b'.len))
      (f' := fun
        | .done i _ => do
          let n ← usub b'.len 1
          return (i, true, n)
        | .err _ => .ok (c'.span, false, b'.len))
      (by
        intro i i' _ _ hi _
        exact SameOutcome.bindEq rfl fun n => Like.pair hi rfl)
      (by
        intro e
        exact Like.pair hc.span rfl)
    revert this
    generalize (Nom.tag [':'] c.span >>= fun
        | .done i _ => do
          let n ← usub b'.len 1
          return (i, true, n)
        | .err _ => .ok (c.span, false, b'.len) : Res (Span × Bool × Nat)) = x
    generalize (Nom.tag [':'] c'.span >>= fun
        | .done i _ => do
          let n ← usub b'.len 1
          return (i, true, n)
        | .err _ => .ok (c'.span, false, b'.len) : Res (Span × Bool × Nat)) = x'
    intro h
    cases x <;> cases x'
    · exact congrArg Res.ok h
    · cases h
    · cases h
    · cases h
    · exact congrArg Res.panic h
    · cases h
    · cases h
    · cases h
    · rfl
  rintro ⟨i, dc, n⟩ ⟨i', dc', n'⟩ h
  obtain ⟨hi, h⟩ := h.pair_inj
  obtain ⟨h1, h2⟩ := h.pair_inj
  obtain rfl : dc = dc' := h1
  obtain rfl : n = n' := h2
  refine SameOutcome.bindPO (parseVariableLine_same hr hi hs) ?_ ?_
  · intro _ _ a a' st st' _ ha hst
    exact ⟨Like.done hrest (Like.targetVariable hts ha), hst⟩
  · intro e st st' hst
    refine SameOutcome.bindR (α := Option Span) (g := g) ?_ ?_
    · rw [hi.spanLen]
      split
      · have hf := hi.sliceFrom (n + 1)
        revert hf
        generalize i.sliceFrom (n + 1) = x
        generalize i'.sliceFrom (n + 1) = x'
        intro hf
        exact bindLike hf fun a a' ha => congrArg Res.ok (Like.some ha)
      · rfl
    · intro p p' hp
      refine SameOutcome.bindE (expandSegment_same hr (hi.slice n) hst) ?_ ?_
      · intro d d' st st' hd hst
        refine SameOutcome.bindR (α := Block × Option Block) (g := g) ?_ ?_
        · cases p <;> cases p'
          · refine bindLike (hd.span.unquote _) ?_
            rintro ⟨x, y⟩ ⟨x', y'⟩ hxy
            obtain ⟨hx, hy⟩ := hxy.pair_inj
            cases y <;> cases y'
            · exact congrArg Res.ok (Like.pair hx rfl)
            · cases hy
            · cases hy
            · rename_i u u'
              obtain ⟨u1, u2⟩ := u
              obtain ⟨u1', u2'⟩ := u'
              exact bindLike (hy.some_inj).pair_inj.2.newBlock fun a a' ha => congrArg Res.ok (Like.pair hx ha.some)
          · cases hp
          · cases hp
          · exact bindLike hp.some_inj.newBlock fun a a' ha => congrArg Res.ok (Like.pair hd ha.some)
        rintro ⟨x, y⟩ ⟨x', y'⟩ hxy
        obtain ⟨hx, hy⟩ := hxy.pair_inj
        refine SameOutcome.bindP (α := Option Ast) (g := g) ?_ ?_ ?_
        · cases y <;> cases y'
          · rfl
          · cases hy
          · cases hy
          · rename_i u u'
            have hu := hy.some_inj
            refine rl_congr (f := fun i => (parseAst i).mapP Option.some) (fun i => ?_) hu.span
            exact mapP_rl (parseAst_rl i) fun _ => rfl
        · intro _ _ cmd cmd' _ hcmd
          refine SameOutcome.bindEq (by rw [rl_const (f := Span.chars) Span.chars_rl hx.span]) fun cs => ?_
          refine SameOutcome.ite Iff.rfl rfl ?_
          refine SameOutcome.bindR (hx.span.fileSeq [':']) fun ds ds' hds => ?_
          exact ⟨Like.done hrest (Like.newRule _ hts hds hcmd), hst⟩
        · intro e
          exact ⟨rfl, hst⟩
      · intro e st st' hst
        exact ⟨rfl, hst⟩

omit hr in
theorem splitSemicolon_like {i i' : Span} (hi : Like g i i') :
    Like g (do
      match ← takeUntilUnquote i (fun c => c == ';' || c == '#') with
      | (pre, some (stopChar, post)) => do
        let c ← Nom.firstChar stopChar
        if c = some '#' then return (pre, none)
        else do
          let b ← post.toNewBlock
          return (pre, some b)
      | (pre, none) => return (pre, none) : Res (Block × Option Block))
    (do
      match ← takeUntilUnquote i' (fun c => c == ';' || c == '#') with
      | (pre, some (stopChar, post)) => do
        let c ← Nom.firstChar stopChar
        if c = some '#' then return (pre, none)
        else do
          let b ← post.toNewBlock
          return (pre, some b)
      | (pre, none) => return (pre, none) : Res (Block × Option Block)) := by
  refine bindLike (hi.unquote _) ?_
  rintro ⟨x, y⟩ ⟨x', y'⟩ hxy
  obtain ⟨hx, hy⟩ := hxy.pair_inj
  cases y <;> cases y'
  · exact congrArg Res.ok (Like.pair hx rfl)
  · cases hy
  · cases hy
  · rename_i u u'
    obtain ⟨u1, u2⟩ := u
    obtain ⟨u1', u2'⟩ := u'
    obtain ⟨h1, h2⟩ := hy.some_inj.pair_inj
    dsimp only
    rw [h1.first]
    cases Nom.firstChar u1' with
    | ok c =>
      show Like g (if c = some '#' then _ else _) (if c = some '#' then _ else _)
      split
      · exact congrArg Res.ok (Like.pair hx rfl)
      · exact bindLike h2.newBlock fun a a' ha => congrArg Res.ok (Like.pair hx ha.some)
    | panic p => rfl
    | fuel => rfl

theorem parseTargetLine_same {i i' : Span} {st st' : St} (hi : Like g i i') (hs : StRel g st st') :
    SameOutcome (Out g) (parseTargetLine r i st) (parseTargetLine r' i' st') := by
  unfold parseTargetLine
  refine SameOutcome.bindP (rl_congr (f := fun i => makefileLine i .gnu false) (fun i => makefileLine_rl i .gnu false) hi) ?_ ?_
  · intro rest rest' line line' hrest hline
    refine SameOutcome.bindR (splitSemicolon_like hline.span) ?_
    rintro ⟨line, post⟩ ⟨line', post'⟩ hlp
    obtain ⟨hline, hpost⟩ := hlp.pair_inj
    refine SameOutcome.bindP (rl_congr (f := nextMword) nextMword_rl hline.span) ?_ ?_
    · rintro j j' ⟨w, m⟩ ⟨w', m'⟩ hj hwm
      obtain ⟨hw, hm⟩ := hwm.pair_inj
      obtain rfl : m = m' := hm
      have main : ∀ m, SameOutcome (Out g)
          (do
            let (res, st) ← wordLoop r (line.len + 2) j w m Block.empty post st
            match res with
            | .err e => return (.err e, st)
            | .noAction => return (.done rest .noAction, st)
            | .finished preColon afterColon lineNext postSemi mwt =>
              if mwt = .eol then do
                match ← whitespace preColon.span with
                | .err _ => .panic .unwrap
                | .done afterSpace _ =>
                  if afterSpace.length = 0 then return (.done rest .noAction, st)
                  else return (.err (.failure (.custom .missingSeparator)), st)
              else do
                let afterColon ← runwrap afterColon
                finishRule r rest preColon afterColon lineNext postSemi st)
          (do
            let (res, st) ← wordLoop r' (line'.len + 2) j' w' m Block.empty post' st'
            match res with
            | .err e => return (.err e, st)
            | .noAction => return (.done rest' .noAction, st)
            | .finished preColon afterColon lineNext postSemi mwt =>
              if mwt = .eol then do
                match ← whitespace preColon.span with
                | .err _ => .panic .unwrap
                | .done afterSpace _ =>
                  if afterSpace.length = 0 then return (.done rest' .noAction, st)
                  else return (.err (.failure (.custom .missingSeparator)), st)
              else do
                let afterColon ← runwrap afterColon
                finishRule r' rest' preColon afterColon lineNext postSemi st) := by
        intro m
        rw [hline.blockLen]
        refine SameOutcome.bindO (wordLoop_same hr _ _ _ _ _ m _ _ _ _ _ _ hj hw rfl hpost hs) ?_
        intro x x' st st' hx hst
        cases x <;> cases x' <;> try cases hx
        · exact ⟨rfl, hst⟩
        · exact ⟨Like.done hrest rfl, hst⟩
        · rename_i p a l s m p' a' l' s' m'
          injection hx with h1 h2 h3 h4 h5
          subst h5
          refine SameOutcome.ite Iff.rfl ?_ ?_
          · refine SameOutcome.bindP (Like.white (Like.span h1)) ?_ ?_
            · intro k k' _ _ hk _
              exact SameOutcome.ite (by rw [hk.spanLen]) ⟨Like.done hrest rfl, hst⟩ ⟨rfl, hst⟩
            · intro e
              rfl
          · refine SameOutcome.bindR (Like.unwrap h2) fun y y' hy => ?_
            exact finishRule_same hr hrest h1 hy h3 h4 hst
      cases m
      · show SameOutcome _ (if _ then _ else _) (if _ then _ else _)
        exact SameOutcome.ite (by rw [hpost.isSome]) ⟨rfl, hs⟩ ⟨Like.done hrest rfl, hs⟩
      · exact main _
      · exact main _
      · exact ⟨Like.done hrest rfl, hs⟩
      · exact ⟨Like.done hrest rfl, hs⟩
      · exact main _
      · exact main _
    · intro e
      exact ⟨rfl, hs⟩
  · intro e
    exact ⟨rfl, hs⟩

omit hr [Moves g] in
theorem handleTargetAction_like {p p' : PState} {a a' : TargetAction} (hp : Like g p p') (ha : Like g a a') :
    Like g (handleTargetAction p a) (handleTargetAction p' a') := by
  cases a <;> cases a' <;> try cases ha
  · exact congrArg Res.ok hp
  · rename_i t d x c t' d' x' c'
    injection ha with h1 h2 h3 h4
    subst h3
    unfold handleTargetAction
    have hp' : Like g ({ p with currentRule := some ⟨t, d, [], if x then .doubleColon else .standard⟩ } : PState)
        ({ p' with currentRule := some ⟨t', d', [], if x then .doubleColon else .standard⟩ } : PState) :=
      Like.pstate hp.conds hp.ignoring (Like.some (Like.proto _ h1 h2 rfl)) hp.defn
    cases c <;> cases c'
    · exact congrArg Res.ok hp'
    · cases h4
    · cases h4
    · exact pushCommandLine_same hp' (Like.some_inj h4)
  · rfl

/-! ### Files, directives and lines -/

variable (start : ∀ f f', g (.source 1 1 f) = g (.source 1 1 f'))
include start

omit hr in
theorem fileBlock_like (f f' : FileName) (t : Str) : Like g (fileBlock f t) (fileBlock f' t) := by
  unfold fileBlock
  refine Like.blockNew [] (Like.one (Like.node (Like.constantNode ?_)))
  show LStr.mk (g _) t = LStr.mk (g _) t
  rw [start f f']

theorem readMakefile_same (content : FsEntry) (name name' : Str) {st st' : St} (hs : StRel g st st') :
    SameOutcome (Out g) (readMakefile r content name st) (readMakefile r' content name' st') := by
  unfold readMakefile
  cases content with
  | text t =>
    refine SameOutcome.bindR (fileBlock_like start _ _ t) fun b b' hb => ?_
    exact hr.block _ _ _ _ hb (hs.internFiles name name')
  | missing => exact ⟨rfl, hs⟩
  | unreadable => exact ⟨rfl, hs⟩

variable (fs : Fs)

theorem includeLoop_same (soft : Bool) : ∀ (bs bs' : List Block) (st st' : St), Like g bs bs' → StRel g st st' →
    SameOutcome (Out g) (includeLoop fs r soft bs st) (includeLoop fs r' soft bs' st')
  | [], [], _, _, _, hs => ⟨rfl, hs⟩
  | [], _ :: _, _, _, h, _ => by cases h
  | _ :: _, [], _, _, h, _ => by cases h
  | b :: bs, b' :: bs', st, st', h, hs => by
    obtain ⟨hb, hbs⟩ := rl_cons_inj h
    have next := includeLoop_same soft bs bs'
    have read : ∀ content name, SameOutcome (Out g)
        (do
          let (res, st) ← readMakefile r content name st
          match res with
          | .ok () => includeLoop fs r soft bs st
          | .error .ioError => return (.error (.includeFailure name), st)
          | .error (.parseError k) => return (.error k, st))
        (do
          let (res, st) ← readMakefile r' content name st'
          match res with
          | .ok () => includeLoop fs r' soft bs' st
          | .error .ioError => return (.error (.includeFailure name), st)
          | .error (.parseError k) => return (.error k, st)) := by
      intro content name
      refine SameOutcome.bindE (readMakefile_same hr start content name name hs) ?_ ?_
      · intro _ _ st st' _ hst
        exact next _ _ hbs hst
      · intro e st st' hst
        cases e
        · exact ⟨rfl, hst⟩
        · exact ⟨rfl, hst⟩
    unfold includeLoop
    refine SameOutcome.bindEq (intoString_congr hb) fun name => ?_
    cases hf : fs name with
    | missing => exact SameOutcome.ite Iff.rfl (next _ _ hbs hs) ⟨rfl, hs⟩
    | unreadable => exact read _ _
    | text t => exact read _ _

theorem handleInclude_same (soft : Bool) {a a' : Ast} {st st' : St} (ha : Like g a a') (hs : StRel g st st') :
    SameOutcome (Out g) (handleInclude fs r soft a st) (handleInclude fs r' soft a' st') := by
  unfold handleInclude
  refine SameOutcome.bindO (hr.evalBlock ha hs) ?_
  intro b b' st st' hb hst
  refine SameOutcome.bindR (hb.span.fileSeq []) fun l l' hl => ?_
  exact includeLoop_same hr start fs soft _ _ _ _ hl hst

theorem handleDirective_same {d d' : Directive} {st st' : St} (hd : Like g d d') (hs : StRel g st st') :
    SameOutcome (Out g) (handleDirective fs r d st) (handleDirective fs r' d' st') := by
  cases d <;> cases d' <;> first | cases hd; done | skip
  all_goals try cases hd
  all_goals unfold handleDirective
  · injection hd with hd
    exact handleInclude_same hr start fs false hd hs
  · injection hd with hd
    exact handleInclude_same hr start fs true hd hs
  all_goals rfl

omit hr start [Moves g] in
theorem lineResult_out {i i' : Span} {h h' : Handled} (hi : Like g i i') (hh : Out3 g h h') :
    Out3 g (lineResult i h) (lineResult i' h') := by
  obtain ⟨x, p, st⟩ := h
  obtain ⟨x', p', st'⟩ := h'
  obtain ⟨h1, h2, h3⟩ := hh
  cases x <;> cases x'
  · have : Except.error _ = Except.error _ := h1
    injection this with this
    subst this
    exact ⟨rfl, h2, h3⟩
  · cases h1
  · cases h1
  · exact ⟨Like.done hi rfl, h2, h3⟩

theorem parseStatement_same {p p' : PState} {st st' : St} {i i' : Span} {l l' : Block} (hp : Like g p p') (hs : StRel g st st')
    (hi : Like g i i') (hl : Like g l l') :
    SameOutcome (Out3 g) (parseStatement fs r p st i l) (parseStatement fs r' p' st' i' l') := by
  unfold parseStatement
  refine SameOutcome.bindPO (parseVariableLine_same hr hl.span hs) ?_ ?_
  · intro _ _ a a' st st' _ ha hst
    refine SameOutcome.bindO (closeRule_same hp hst) ?_
    intro p p' st st' hp hst
    refine SameOutcome.bindO (handleVariableAction_same hp hst ha) ?_
    intro p p' st st' hp hst
    exact ⟨Like.done hi rfl, hp, hst⟩
  · intro e st st' hst
    cases e with
    | failure k => exact ⟨rfl, hp, hst⟩
    | error k =>
      refine SameOutcome.bindP (rl_congr (f := parseDirectiveLine) parseDirectiveLine_rl hl.span) ?_ ?_
      · intro _ _ d d' _ hd
        refine SameOutcome.bindO (closeRule_same hp hst) ?_
        intro p p' st st' hp hst
        refine SameOutcome.bindO (handleDirective_same hr start fs hd hst) ?_
        intro x x' st st' hx hst
        exact lineResult_out hi ⟨hx, hp, hst⟩
      · intro e
        cases e with
        | failure k => exact ⟨rfl, hp, hst⟩
        | error k =>
          refine SameOutcome.bindEq hl.span.first fun c => ?_
          refine SameOutcome.ite (by rw [hst.same.commandChar]) ⟨rfl, hp, hst⟩ ?_
          refine SameOutcome.bindPO (parseTargetLine_same hr hl.span hst) ?_ ?_
          · intro _ _ a a' st st' _ ha hst
            refine SameOutcome.bindO (closeRule_same hp hst) ?_
            intro p p' st st' hp hst
            refine SameOutcome.bindR (handleTargetAction_like hp ha) fun p p' hp => ?_
            exact ⟨Like.done hi rfl, hp, hst⟩
          · intro e st st' hst
            cases e with
            | failure k => exact ⟨rfl, hp, hst⟩
            | error k => exact ⟨Like.done hi rfl, hp, hst⟩

theorem parseCollapsed_same {p p' : PState} {st st' : St} {i i' : Span} (hp : Like g p p') (hs : StRel g st st')
    (hi : Like g i i') : SameOutcome (Out3 g) (parseCollapsed fs r p st i) (parseCollapsed fs r' p' st' i') := by
  unfold parseCollapsed
  refine SameOutcome.bindP (rl_congr (f := fun i => makefileLine i .gnu true) (fun i => makefileLine_rl i .gnu true) hi) ?_ ?_
  · intro j j' l l' hj hl
    refine SameOutcome.ite (by rw [hl.blockLen]) ⟨Like.done hj rfl, hp, hs⟩ ?_
    refine SameOutcome.bindP (rl_congr (f := parseConditionalLine) parseConditionalLine_rl hl.span) ?_ ?_
    · intro _ _ c c' _ hc
      refine SameOutcome.bind (handleConditional_same hr hp hs hc) ?_
      intro h h' hh
      exact lineResult_out hj hh
    · intro e
      cases e with
      | failure k => exact ⟨rfl, hp, hs⟩
      | error k =>
        exact SameOutcome.ite (by rw [hp.ignoring]) ⟨Like.done hj rfl, hp, hs⟩ (parseStatement_same hr start fs hp hs hj hl)
  · intro e
    exact ⟨rfl, hp, hs⟩

theorem parseLine_same {p p' : PState} {st st' : St} {i i' : Span} (hp : Like g p p') (hs : StRel g st st')
    (hi : Like g i i') : SameOutcome (Out3 g) (parseLine fs r p st i) (parseLine fs r' p' st' i') := by
  unfold parseLine
  refine SameOutcome.bindP (rl_congr (f := parseCommentFollowingWhitespace) parseCommentFollowingWhitespace_rl hi) ?_ ?_
  · intro j j' _ _ hj _
    exact ⟨Like.done hj rfl, hp, hs⟩
  · intro e
    cases e with
    | failure k => exact ⟨rfl, hp, hs⟩
    | error k =>
      refine SameOutcome.ite (by rw [hp.rule.isSome]) ?_ ?_
      · rw [hs.same.commandChar]
        refine SameOutcome.bindP (rl_congr (f := recipeLine st'.commandChar) (recipeLine_rl st'.commandChar) hi) ?_ ?_
        · intro j j' a a' hj ha
          refine SameOutcome.bindR (pushCommandLine_same hp ha) fun p p' hp => ?_
          exact ⟨Like.done hj rfl, hp, hs⟩
        · intro e
          cases e with
          | failure k => exact ⟨rfl, hp, hs⟩
          | error k => exact parseCollapsed_same hr start fs hp hs hi
      · refine SameOutcome.ite (by rw [hp.defn]) ?_ (parseCollapsed_same hr start fs hp hs hi)
        refine SameOutcome.bindP (rl_congr (f := parseDefineLine) parseDefineLine_rl hi) ?_ ?_
        · intro j j' a a' hj ha
          refine SameOutcome.bindO (handleDefineLine_same hp hs ha) ?_
          intro p p' st st' hp hst
          exact ⟨Like.done hj rfl, hp, hst⟩
        · intro e
          cases e with
          | failure k => exact ⟨rfl, hp, hs⟩
          | error k => rfl

theorem processLoop_same (n : Nat) : ∀ (i i' : Span) (p p' : PState) (st st' : St), Like g i i' → Like g p p' → StRel g st st' →
    SameOutcome (Out g) (processLoop fs r n i p st) (processLoop fs r' n i' p' st') := by
  induction n with
  | zero => intros; trivial
  | succ n ih =>
    intro i i' p p' st st' hi hp hs
    unfold processLoop
    refine SameOutcome.ite (by rw [hi.spanLen]) ?_ ⟨rfl, hs⟩
    refine SameOutcome.bind (parseLine_same hr start fs hp hs hi) ?_
    rintro ⟨x, p, st⟩ ⟨x', p', st'⟩ ⟨h1, h2, h3⟩
    cases x <;> cases x' <;> try cases h1
    · injection h1 with h1 _
      exact ih _ _ _ _ _ _ h1 h2 h3
    · rfl

theorem processStep_same {b b' : Block} {st st' : St} (hb : Like g b b') (hs : StRel g st st') :
    SameOutcome (Out g) (processStep fs r b st) (processStep fs r' b' st') := by
  unfold processStep
  have h : Like g (orElse (Nom.char bom b.span) (done b.span ())) (orElse (Nom.char bom b'.span) (done b'.span ())) := by
    refine rl_congr (f := fun i => orElse (Nom.char bom i) (done i ())) (fun i => ?_) hb.span
    exact orElse_rl (Nom.char_rl bom i) rfl
  rw [hb.blockLen]
  refine SameOutcome.bindP h ?_ ?_
  · intro i i' _ _ hi _
    exact processLoop_same hr start fs _ _ _ _ _ _ _ hi rfl hs
  · intro e
    rfl

omit hr in
/-- The engine does not look at which file text comes from. -/
theorem recF_same (n : Nat) : RecSim g (recF fs n) (recF fs n) := by
  induction n with
  | zero => exact ⟨fun _ _ _ _ _ _ => trivial, fun _ _ _ _ _ _ => trivial⟩
  | succ n ih =>
    exact ⟨fun _ _ _ _ ha hs => evalStep_same ih ha hs, fun _ _ _ _ hb hs => processStep_same ih start fs hb hs⟩

omit hr in
theorem expandF_same (n : Nat) (v : VariableName) {st st' : St} (hs : StRel g st st') :
    SameOutcome (fun x x' => x.1 = x'.1 ∧ StRel g x.2 x'.2) (expandF fs n v st) (expandF fs n v st') := by
  unfold expandF
  rcases hs.getVariable v with ⟨h1, h2⟩ | ⟨p, p', h1, h2, hp⟩
  · rw [h1, h2]
    exact ⟨rfl, hs⟩
  · rw [h1, h2]
    refine SameOutcome.bindO ((recF_same start fs n).evalBlock (VarParams.rl_value hp) hs) ?_
    intro b b' st st' hb hst
    refine SameOutcome.bindEq (intoString_congr hb) fun s => ?_
    exact ⟨rfl, hst⟩

omit hr start [Moves g] in
theorem Like.exceptUnit {ε : Type} {x x' : Except ε Unit} (h : Like g x x') : x = x' := by
  cases x <;> cases x'
  · have : Except.error _ = Except.error _ := h
    injection this with this
  · cases h
  · cases h
  · rfl

omit hr start [Moves g] in
theorem SameOutcome.mono {α : Type} {R S : α → α → Prop} {p p' : Res α} (h : SameOutcome R p p')
    (hi : ∀ a a', R a a' → S a a') : SameOutcome S p p' := by
  cases p <;> cases p' <;> first | exact hi _ _ h | exact h | cases h

omit hr in
theorem runActs_same (n : Nat) : ∀ (acts acts' : List Act) (st st' : St), acts.map Act.unnamed = acts'.map Act.unnamed →
    StRel g st st' →
    SameOutcome (fun x x' => x.1 = x'.1 ∧ StRel g x.2 x'.2) (runActs fs n acts st) (runActs fs n acts' st')
  | [], [], _, _, _, hs => ⟨rfl, hs⟩
  | [], _ :: _, _, _, h, _ => by cases h
  | _ :: _, [], _, _, h, _ => by cases h
  | a :: as, a' :: as', st, st', h, hs => by
    injection h with h1 h2
    have key : SameOutcome (fun x x' => x.1 = x'.1 ∧ StRel g x.2 x'.2) (a.run fs n st) (a'.run fs n st') := by
      cases a <;> cases a' <;> try cases h1
      · rename_i name content name'
        refine SameOutcome.bind (readMakefile_same (recF_same start fs n) start content name name' hs) ?_
        rintro ⟨x, st⟩ ⟨x', st'⟩ ⟨hx, hst⟩
        exact ⟨congrArg Answer.read hx.exceptUnit, hst⟩
      · refine SameOutcome.bind (expandF_same start fs n _ hs) ?_
        rintro ⟨x, st⟩ ⟨x', st'⟩ ⟨hx, hst⟩
        exact ⟨congrArg Answer.expanded hx, hst⟩
    unfold runActs
    refine SameOutcome.bind key ?_
    rintro ⟨x, st⟩ ⟨_, st'⟩ ⟨rfl, hst⟩
    refine SameOutcome.bind (runActs_same n as as' st st' h2 hst) ?_
    rintro ⟨y, st⟩ ⟨_, st'⟩ ⟨rfl, hst⟩
    exact ⟨rfl, hst⟩

end Hastur
