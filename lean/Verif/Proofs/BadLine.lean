import Verif.Spec.BadLine
import Verif.Proofs.Driver
import Verif.Proofs.Include
import Verif.Proofs.Define
import Verif.Proofs.RuleDemo
import Verif.Proofs.Program
/-
Lemmas: lines of which an expression is not well-formed.
-/
namespace Hastur

open Res Span

variable {P : Block} {t : List LChar} {i : Span}

theorem splitAssignment_bad (hm : Block.Mono P) {line name value : List LChar} {ty : AssignType} (h : i.At P line)
    (ha : AssignText line name ty value) {k : ParseErrorKind}
    (hb : Reads name (.error k) ∨ ∃ nes, Reads name (.ok nes) ∧ Reads value (.error k)) :
    splitAssignment i = .ok (.err (.failure (.custom k))) := by
  obtain ⟨r, n, h1, h2, h3⟩ := parseAssignmentOperator_at h ha
  obtain ⟨r', q, w1, w2, _⟩ := whitespace_at h2
  rw [dropWhile_solid (by
    obtain ⟨name, gap, op, gap', value, ty, _, _, _, _, h5⟩ := ha
    intro z hz
    cases e : lblank z with
    | false => rfl
    | true => exact absurd (lblank_iff.mp e) (h5 z hz))] at w2
  unfold splitAssignment
  rw [h1, done_andThen]
  dsimp only
  rw [w1, done_andThen]
  rcases hb with hb | ⟨nes, hn, hv⟩
  · rw [(parseAst_at hm h3 hb).1]
    rfl
  · obtain ⟨rn, na, a1, _, a3, a4⟩ := parseAst_at hm h3 hn
    rw [a1, done_andThen, (parseAst_at hm w2 hv).1]
    rfl

/-- An assignment with a reference that is not closed is reported. -/
theorem parseLine_unclosed (fs : Fs) {p : PState} {st : St} {line rest name value : List LChar} {ty : AssignType}
    (h : FoundLine P i t line rest p st) (hig : p.ignoring = false)
    (hr : p.currentRule = none ∨ (textOf t).head? ≠ some st.commandChar)
    (ha : AssignText line name ty value) (hc : ¬ CondLike (line.dropWhile lblank))
    (hb : Reads name (.error .unterminatedVariable) ∨
      ∃ nes, Reads name (.ok nes) ∧ Reads value (.error .unterminatedVariable)) (r : Rec) :
    parseLine fs r p st i = .ok (.err (.failure (.custom .unterminatedVariable)), p, st) := by
  obtain ⟨j, b, e1, _, e3⟩ := h.found
  have hat := e3.at
  obtain ⟨s, q, w1, w2, _⟩ := whitespace_at hat
  obtain ⟨ha', hne'⟩ := ha.dropBlanks
  have hne : line ≠ [] := by
    rintro rfl
    exact hne' rfl
  have hlen : b.len ≠ 0 := by
    have := hat.length
    have e : b.span.length = b.len := rfl
    rw [← e, this]
    simpa using hne
  have hs := splitAssignment_bad (e3.mono h.pieces h.mono) w2 ha' hb
  have hlen' : s.length ≠ 0 := by
    rw [w2.length]
    simpa using hne'
  rw [parseLine_collapsed_of fs _ h.at_ h.comment h.define h.command hr]
  unfold parseCollapsed
  simp only [e1, ok_bind, if_neg hlen, parseConditionalLine_none hat hc,
    if_neg (show ¬ p.ignoring = true by rw [hig]; decide)]
  unfold parseStatement parseVariableLine
  simp only [w1, ok_bind, if_neg hlen', modifierLoop, parseVariableAssignment, hs]
  rfl

/-- An include line whose names are no well-formed expression is reported. -/
theorem parseDirectiveLine_badInclude {line args : List LChar} {soft : Bool} {k : ParseErrorKind} (hm : Block.Mono P)
    (h : i.At P line) (hi : IncludeText line soft args) (hr : Reads args (.error k)) :
    parseDirectiveLine i = .ok (.err (.failure (.custom k))) := by
  obtain ⟨kw, rfl, hk⟩ := hi.keyword
  have bad : ∀ w ∈ ["export".toList, "unexport".toList, "vpath".toList],
      Nom.tagNoCase w i = .ok (.err (.error .code)) := by
    intro w hw
    have h1 : AsciiS w ∧ w.map lower = w := by
      revert w; unfold AsciiS; decide
    refine (Nom.tagNoCase_at h h1.1).2 fun hp => ?_
    rw [h1.2, textOf_append, List.map_append] at hp
    have := include_not_directive w hw _ hk
    exact not_prefix_append this.1 this.2 hp
  have good : ∀ w, AsciiS w → w.map lower = w → (textOf kw).map lower = w →
      ∃ r q, Nom.tagNoCase w i = .ok (.done r q) ∧ parseAst r = .ok (.err (.failure (.custom k))) := by
    intro w h1 h2 h3
    obtain ⟨r, q, e1, e2, _⟩ := (Nom.tagNoCase_at h h1).1 (by
      rw [h2, textOf_append, List.map_append, h3]; exact List.prefix_append _ _)
    have : w.length = kw.length := by rw [← h3]; simp [textOf]
    rw [this, List.drop_left] at e2
    exact ⟨r, q, e1, (parseAst_at hm e2 hr).1⟩
  have no : ∀ w w', AsciiS w → w.map lower = w → (textOf kw).map lower = w' → (¬ w <+: w' ∧ ¬ w' <+: w) →
      Nom.tagNoCase w i = .ok (.err (.error .code)) := by
    intro w w' h1 h2 h3 h4
    refine (Nom.tagNoCase_at h h1).2 fun hp => ?_
    rw [h2, textOf_append, List.map_append, h3] at hp
    exact not_prefix_append h4.1 h4.2 hp
  have ascii : ∀ w ∈ includeWords, AsciiS w ∧ w.map lower = w := by
    unfold AsciiS includeWords; decide
  have a1 := ascii _ (show "include".toList ∈ _ by unfold includeWords; simp)
  have a2 := ascii _ (show "sinclude".toList ∈ _ by unfold includeWords; simp)
  have a3 := ascii _ (show "-include".toList ∈ _ by unfold includeWords; simp)
  have key : (textOf kw).map lower = "include".toList ∨ (textOf kw).map lower = "sinclude".toList ∨
      (textOf kw).map lower = "-include".toList := by
    simpa [includeWords] using hk
  unfold parseDirectiveLine
  simp only [bad _ (show "export".toList ∈ _ by simp), bad _ (show "unexport".toList ∈ _ by simp),
    bad _ (show "vpath".toList ∈ _ by simp)]
  rcases key with hk | hk | hk
  · obtain ⟨r, q, e1, e2⟩ := good _ a1.1 a1.2 hk
    rw [e1, done_andThen, e2]
    rfl
  · obtain ⟨r, q, e1, e2⟩ := good _ a2.1 a2.2 hk
    rw [no _ _ a1.1 a1.2 hk (by decide), e1, done_andThen, e2]
    rfl
  · obtain ⟨r, q, e1, e2⟩ := good _ a3.1 a3.2 hk
    rw [no _ _ a1.1 a1.2 hk (by decide), no _ _ a2.1 a2.2 hk (by decide), e1, done_andThen, e2]
    rfl

theorem parseLine_badInclude (fs : Fs) {line rest args : List LChar} {soft : Bool} {p : PState} {st : St} {k : ParseErrorKind}
    (h : FoundLine P i t line rest p st) (ho : p.currentRule = none ∨ (textOf t).head? ≠ some st.commandChar)
    (ha : p.ignoring = false) (hi : IncludeText line soft args) (hv : ¬ VarLike line) (hr : Reads args (.error k)) (r : Rec) :
    parseLine fs r p st i = .ok (.err (.failure (.custom k)), p, st) := by
  obtain ⟨j, b, e1, e2, e3⟩ := h.found
  have hat := e3.at
  have hdrop := hi.dropBlanks
  have hlen : b.len ≠ 0 := by
    have := hat.length
    have e : b.span.length = b.len := rfl
    rw [← e, this]
    simpa using hdrop.2
  have f1 := parseDirectiveLine_badInclude (e3.mono h.pieces h.mono) hat hi hr
  rw [parseLine_collapsed_of fs _ h.at_ h.comment h.define h.command ho]
  obtain ⟨e, hv⟩ := parseVariableLine_none r st hat (by rw [hdrop.1]; exact hv)
  unfold parseCollapsed
  simp only [e1, ok_bind, if_neg hlen, parseConditionalLine_none hat (by rw [hdrop.1]; exact hi.not_cond),
    if_neg (show ¬ p.ignoring = true by rw [ha]; decide)]
  unfold parseStatement
  simp only [hv, ok_bind, f1]
  rfl

/-- So is a line inside a definition. -/
theorem parseLine_badBody (fs : Fs) (hP : P.content.length ≤ 1) (hm : Block.Mono P) {line rest : List LChar}
    {k : ParseErrorKind} {p : PState} {st : St} {d : DefineState} (h : i.At P (line ++ rest)) (hl : WholeLine line rest)
    (hf : Free '#' (line ++ rest)) (hr : Reads line (.error k)) (hc : p.currentRule = none)
    (hd : p.currentDefine = some d) (r : Rec) :
    parseLine fs r p st i = .ok (.err (.failure (.custom k)), p, st) := by
  obtain ⟨j, l, e1, e2, e3⟩ := grabDefineLine_whole hP h hl hf
  obtain ⟨x, line', rfl⟩ : ∃ x line', line = x :: line' := by
    cases line with
    | nil => exact absurd rfl hl.ne_nil
    | cons x t => exact ⟨x, t, rfl⟩
  have hloc := Span.location_mono e3.good (by rw [e3.parent]; exact hm)
  rw [e3.ltext] at hloc
  have f1 := (parseAst_at hm e3 hr).1
  unfold parseLine
  simp only [comment_none h (free_dropWhile hf), ok_bind, hc, hd]
  unfold parseDefineLine
  simp only [e1, done_andThen, hloc, List.head?_cons, Option.map_some, runwrap, ok_bind, f1, err_andThen]
  rfl

/-! ### Lines that are dropped -/

/-- An assignment with a function call that has too few or too many arguments is not taken for an assignment. -/
theorem parseVariableLine_bad (r : Rec) (st : St) (hm : Block.Mono P) {line name value : List LChar} {ty : AssignType}
    (h : i.At P line) (hd : line.dropWhile lblank = line) (ha : AssignText line name ty value) {k : ParseErrorKind}
    (hk : k ≠ .unterminatedVariable) (hw : ∀ w ∈ varWords, ¬ w <+: (textOf line).map lower)
    (hb : Reads name (.error k) ∨ ∃ nes, Reads name (.ok nes) ∧ Reads value (.error k)) :
    ∃ e, parseVariableLine r i st = .ok (.err (.error e), st) := by
  obtain ⟨s, q, w1, w2, _⟩ := whitespace_at h
  rw [hd] at w2
  have hne := ha.dropBlanks.2
  rw [hd] at hne
  have hs := splitAssignment_bad hm w2 ha hb
  have hlen : s.length ≠ 0 := by
    rw [w2.length]
    simpa using hne
  have key : ∀ w ∈ varWords, Nom.tagNoCase w s = .ok (.err (.error .code)) := by
    intro w hw'
    have h1 : AsciiS w ∧ w.map lower = w := by
      revert w; unfold AsciiS varWords; decide
    refine (Nom.tagNoCase_at w2 h1.1).2 fun hp => hw w hw' ?_
    rwa [h1.2] at hp
  have hkw : modifierKeyword s = .ok (.err (.error .code)) := by
    unfold modifierKeyword
    simp only [key _ (show "define".toList ∈ varWords by unfold varWords; simp),
      key _ (show "undefine".toList ∈ varWords by unfold varWords; simp),
      key _ (show "export".toList ∈ varWords by unfold varWords; simp),
      key _ (show "override".toList ∈ varWords by unfold varWords; simp),
      key _ (show "private".toList ∈ varWords by unfold varWords; simp), err_mapP, error_orElse, err_andThen]
  refine ⟨.custom (.internalFailure "not an assignment".toList), ?_⟩
  unfold parseVariableLine
  simp only [w1, ok_bind, if_neg hlen, modifierLoop, parseVariableAssignment, hs, hkw]
  cases k <;> first | exact absurd rfl hk | (simp only [Res.pure_eq, ok_bind, hkw]) | rfl

/-- One word that is left to itself in the word loop. -/
theorem wordLoop_free {r : Rec} {lineNext m r2 m2 : Span} {mwt mwt2 : MWordEnd} {buf b : Block} {bt u : List LChar}
    {postSemi : Option Block} {st st' : St} (he : expandSegment r m st = .ok (.ok b, st')) (hb : Buf u b)
    (f1 : Free '\\' u) (f2 : Free ':' u) (f3 : Free ';' u)
    (hne : u ≠ []) (hn : nextMword lineNext = .ok (.done r2 (m2, mwt2))) (hm : mwt2 ≠ .eol) (hbuf : Buf bt buf) :
    ∃ buf', Buf (spaced bt u) buf' ∧ ∀ k, wordLoop r (k + 1) lineNext m mwt buf postSemi st =
      wordLoop r k r2 m2 mwt2 buf' postSemi st' := by
  obtain ⟨pre, p1, p2⟩ := findColon_none hb f1 f2
  obtain ⟨buf', q1, q2⟩ := pushWord_at hbuf p2
  refine ⟨buf', q2, fun k => ?_⟩
  have hlen : ¬ b.len = 0 := by rw [hb.len]; simpa using hne
  rw [wordLoop]
  simp only [he, ok_bind, semicolonInWord_none r hb f1 f3, if_neg hlen, p1, hn, if_neg hm, q1]

/-- An equals sign by itself is a word. -/
theorem nextMword_equals {gap u : List LChar} {l : Location} (h : i.At P (gap ++ ('=', l) :: u)) (hg : Blanks gap) :
    ∃ r m, nextMword i = .ok (.done r (m, .varAssign)) ∧ r.At P u ∧ m.At P [('=', l)] := by
  obtain ⟨r, q, e1, e2, _⟩ := whitespace_at h
  rw [dropWhile_blanks hg, List.dropWhile_cons_of_neg (by simp [lblank])] at e2
  have e3 := tag_miss e2 (w := ";".toList) (by unfold AsciiS; decide) (by simp [textOf])
  obtain ⟨r2, m, e4, e5, e6⟩ := (Nom.tag_at e2 (w := "=".toList) (by unfold AsciiS; decide)).1 (by simp [textOf])
  refine ⟨r2, m, ?_, e5, e6⟩
  unfold nextMword
  rw [e1, done_andThen, e3, e4]
  rfl

/-- The word loop on `name = words`. -/
theorem wordLoop_equals (fs : Fs) (hm : Block.Mono P) {w gap gap' ts : List LChar} {l : Location} {ws : List (List LChar)}
    (hw : ∀ x ∈ w, WordChar x.1) (hne : w ≠ []) (hg : Blanks gap) (hgne : gap ≠ []) (hg' : Blanks gap')
    (hT : WordList ts ws) (postSemi : Option Block) {st : St} (hst : st.WF)
    (h : i.At P (w ++ (gap ++ ('=', l) :: (gap' ++ ts)))) :
    ∃ N r m reason, nextMword i = .ok (.done r (m, reason)) ∧ (reason = .static ∨ reason = .variable) ∧
      ∀ n k, N ≤ n → (w ++ (gap ++ ('=', l) :: (gap' ++ ts))).length < k →
        wordLoop (recF fs n) k r m reason Block.empty postSemi st = .ok (.noAction, st) := by
  obtain ⟨tt, hT, _⟩ := targets_words st.env hT
  obtain ⟨x, gap1, rfl⟩ := List.exists_cons_of_ne_nil hgne
  have hblank := hg x List.mem_cons_self
  have hstop : WordStop (textOf (x :: gap1 ++ ('=', l) :: (gap' ++ ts))) := by
    rw [List.cons_append, textOf_cons]
    exact .blank hblank
  have hx : WordStop.extra (textOf (x :: gap1 ++ ('=', l) :: (gap' ++ ts))) = 0 := by
    rw [List.cons_append, textOf_cons]
    simp only [WordStop.extra]
    rw [if_neg]
    rcases hblank with h | h <;> rw [h] <;> decide
  obtain ⟨r, m, reason, e1, e2, e3, e4⟩ := nextMword_segment (gap := []) h (by intro x hx; cases hx) (segment_word hw) hne hstop
  rw [hx, List.drop_zero] at e2
  rw [hx, List.take_zero, List.append_nil] at e3
  have hfile : FileNames w := fun x hx => .inl (hw x hx)
  have hdollar : Free '$' w := fun x hx he => (hw x hx).2 (by rw [he]; simp)
  obtain ⟨b, b1, _, b2⟩ := expandSegment_text fs (e3.whole hm) e3 hdollar st
  obtain ⟨r2, m2, c1, c2, c3⟩ := nextMword_equals e2 hg
  have free : ∀ c, c ≠ '=' → Free c [(('=', l) : LChar)] := fun c hc x hx he => by
    rw [List.mem_singleton.mp hx] at he
    exact hc he.symm
  obtain ⟨b', b1', _, b2'⟩ := expandSegment_text fs (c3.whole hm) c3 (free _ (by decide)) st
  obtain ⟨M, r3, m3, reason3, d1, d2, d3⟩ := wordLoop_words fs hm hT postSemi hst rfl hg' c2
  refine ⟨max M 2, r, m, reason, e1, e4, fun n k hn hk => ?_⟩
  obtain ⟨k, rfl⟩ : ∃ k', k = k' + 1 + 1 := ⟨k - 2, by
    have := List.length_pos_iff.mpr hne
    simp at hk; omega⟩
  obtain ⟨buf1, g1, g2⟩ := wordLoop_plain (mwt := reason) (postSemi := postSemi) (b2 n (by omega)) b1 hfile hne c1
    (by decide) Buf.empty
  obtain ⟨buf2, g3, g4⟩ := wordLoop_free (mwt := .varAssign) (postSemi := postSemi) (b2' n (by omega)) b1'
    (free _ (by decide)) (free _ (by decide)) (free _ (by decide)) (by simp) d1
    (by rcases d2 with h | h <;> rw [h] <;> decide) g1
  rw [g2, g4, d3 n k buf2 _ (by omega) (by simp at hk; omega) g3]
  rfl

/-- `name = words`, a semicolon and anything after it: no rule. -/
theorem parseTargetLine_semi (fs : Fs) {L : Block} {w gap gap' ts u : List LChar} {l l' : Location} {ws : List (List LChar)}
    {st : St} (hL : L.content.length ≤ 1) (hm : Block.Mono L)
    (h : L.span.At L ((w ++ (gap ++ ('=', l) :: (gap' ++ ts))) ++ (';', l') :: u))
    (hnl : Free '\n' ((w ++ (gap ++ ('=', l) :: (gap' ++ ts))) ++ (';', l') :: u))
    (hcom : Free '#' ((w ++ (gap ++ ('=', l) :: (gap' ++ ts))) ++ (';', l') :: u))
    (hev : trailingSlashes (textOf ((w ++ (gap ++ ('=', l) :: (gap' ++ ts))) ++ (';', l') :: u)) % 2 = 0)
    (hw : ∀ x ∈ w, WordChar x.1) (hne : w ≠ []) (hg : Blanks gap) (hgne : gap ≠ []) (hg' : Blanks gap')
    (hT : WordList ts ws) (hst : st.WF) :
    ∃ N rest, ∀ n, N ≤ n → parseTargetLine (recF fs n) L.span st = .ok (.done rest .noAction, st) := by
  obtain ⟨rest, L2, m1, _, m3, _⟩ := makefileLine_one (strip := false) h (grabSpec_eof hcom hnl) hev
  have hm2 := m3.mono hL hm
  have hat2 := m3.at
  have hsp : ∀ {g : List LChar}, Blanks g → ∀ x ∈ g, x.1 ∉ [';', '#', '\\'] := fun hg x hx => by
    rcases hg x hx with e | e <;> rw [e] <;> decide
  have hg0 : ∀ x ∈ w ++ (gap ++ ('=', l) :: (gap' ++ ts)), x.1 ∉ [';', '#', '\\'] := by
    intro x hx
    obtain ⟨tt, hT, _⟩ := targets_words st.env hT
    simp only [List.mem_append, List.mem_cons] at hx
    rcases hx with hx | hx | rfl | hx | hx
    · have := (hw x hx).2
      simp only [List.mem_cons, List.not_mem_nil, or_false, not_or] at this ⊢
      exact ⟨this.2.2.2.1, this.2.2.2.2.1, this.2.2.2.2.2.2⟩
    · exact hsp hg x hx
    · show '=' ∉ _
      decide
    · exact hsp hg' x hx
    · exact targets_chars hT x hx
  have g : Free '\\' (w ++ (gap ++ ('=', l) :: (gap' ++ ts))) ∧
      ∀ x ∈ w ++ (gap ++ ('=', l) :: (gap' ++ ts)), (fun c => c == ';' || c == '#') x.1 = false := by
    refine ⟨fun x hx he => hg0 x hx (by rw [he]; simp), fun x hx => ?_⟩
    have := hg0 x hx
    simp only [List.mem_cons, List.not_mem_nil, or_false, not_or] at this
    simp [this.1, this.2.1]
  obtain ⟨b, sc, post, e1, e2, e3, e4⟩ := takeUntilUnquote_hit (fun c => c == ';' || c == '#') (by decide) (by decide) hat2
    g.1 g.2 (by rfl)
  obtain ⟨pb, e5, _⟩ := e4.toNewBlock
  have hsemi : (do
        match ← takeUntilUnquote L2.span (fun c => c == ';' || c == '#') with
        | (pre, some (stopChar, post)) => do
          let c ← Nom.firstChar stopChar
          if c = some '#' then return (pre, none)
          else do
            let b ← post.toNewBlock
            return (pre, some b)
        | (pre, none) => return (pre, none) : Res (Block × Option Block)) = .ok (b, some pb) := by
    rw [e1]
    simp only [ok_bind, Nom.firstChar_at e3, e5]
    rfl
  have hb := e2.buf
  obtain ⟨N, r, m, reason, w1, w2, w7⟩ := wordLoop_equals fs (e2.mono hm2) hw hne hg hgne hg' hT (some pb) hst hb.at
  refine ⟨N, rest, fun n hn => ?_⟩
  have hloop := w7 n (b.len + 2) hn (by
    have := hb.len
    omega)
  unfold parseTargetLine
  refine Res.bind_eq_ok.mpr ⟨_, m1, ?_⟩
  refine Res.bind_eq_ok.mpr ⟨_, hsemi, ?_⟩
  refine Res.bind_eq_ok.mpr ⟨_, w1, ?_⟩
  have hfin : (do
      let (res, st) ← wordLoop (recF fs n) (b.len + 2) r m reason Block.empty (some pb) st
      match res with
      | .err e => return (.err e, st)
      | .noAction => return (.done rest .noAction, st)
      | .finished preColon afterColon lineNext postSemi mwt =>
        if mwt = .eol then do
          match ← whitespace preColon.span with
          | .err _ => .panic .unwrap
          | .done afterSpace _ =>
            if afterSpace.length = 0 then return (.done rest .noAction, st)
            else return (.err (.failure (.custom .missingSeparator)), st)
        else do
          let afterColon ← runwrap afterColon
          finishRule (recF fs n) rest preColon afterColon lineNext postSemi st : Res (IRes TargetAction × St)) =
      .ok (.done rest .noAction, st) := by
    rw [hloop]; rfl
  rcases w2 with h | h <;> subst h <;> exact hfin

/-- The assignment is dropped. -/
theorem parseLine_dropped (fs : Fs) {line rest w gap gap' ts u name value : List LChar} {l l' : Location}
    {ws : List (List LChar)} {ty : AssignType} {p : PState} {st : St} {k : ParseErrorKind}
    (h : Ready P i t line rest p st) (hl : Physical t line rest)
    (hline : line = (w ++ (gap ++ ('=', l) :: (gap' ++ ts))) ++ (';', l') :: u)
    (hc : (textOf line).head? ≠ some st.commandChar) (h5 : ¬ CondLike line)
    (h7 : ¬ DirectiveLike line) (hv : ∀ w ∈ varWords, ¬ w <+: (textOf line).map lower)
    (ha : AssignText line name ty value) (hk : k ≠ .unterminatedVariable)
    (hb : Reads name (.error k) ∨ ∃ nes, Reads name (.ok nes) ∧ Reads value (.error k))
    (hw : ∀ x ∈ w, WordChar x.1) (hne : w ≠ []) (hg : Blanks gap) (hgne : gap ≠ []) (hg' : Blanks gap')
    (hT : WordList ts ws) : LineGives fs P i p st rest p st := by
  obtain ⟨j, b, e1, e2, e3, e4⟩ := makefileLine_physical h.at_ hl h.comment
  have hat := e3.at
  have hbm := e3.mono h.pieces h.mono
  obtain ⟨hnl, hsl, hcm⟩ := hl.free h.comment
  have hdrop := hl.solid
  have hlen : b.len ≠ 0 := by
    have := hat.length
    have e : b.span.length = b.len := rfl
    rw [← e, this, hline]
    simp
  obtain ⟨N, rest', f4⟩ := parseTargetLine_semi fs e4 hbm (hline ▸ hat) (hline ▸ hnl) (hline ▸ hcm) (hline ▸ hsl) hw hne hg
    hgne hg' hT h.wf
  refine ⟨N, j, e2, fun n hn => ?_⟩
  obtain ⟨e, hv⟩ := parseVariableLine_bad (recF fs n) st hbm hat hdrop ha hk hv hb
  rw [parseLine_collapsed fs _ h.at_ h.comment h.define h.command (.inl h.rule)]
  unfold parseCollapsed
  simp only [e1, ok_bind, if_neg hlen, parseConditionalLine_none hat (by rw [hdrop]; exact h5),
    if_neg (show ¬ p.ignoring = true by rw [h.active]; decide)]
  unfold parseStatement
  simp only [hv, ok_bind, parseDirectiveLine_none hat h7, Nom.firstChar_at hat, if_neg hc, f4 n hn]
  simp [PState.closeRule, h.rule, handleTargetAction]

end Hastur
