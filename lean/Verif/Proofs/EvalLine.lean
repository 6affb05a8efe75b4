import Verif.Spec.EvalLine
import Verif.Proofs.Program
import Verif.Proofs.Tree
import Verif.Proofs.RuleDemo
/-
Lemmas: lines that consist of a call of `eval`.
-/
namespace Hastur

open Res Span

variable {P : Block} {t : List LChar} {i : Span}

/-- Without stop characters the text is not cut into pieces. -/
theorem takeUntilUnquote_uncut (stop : Char → Bool) (hs : stop '\\' = false) (h0 : stop (Char.ofNat 0) = false)
    (h : i.At P t) (hf : Free '\\' t) (hn : ∀ x ∈ t, stop x.1 = false) :
    ∃ b, takeUntilUnquote i stop = .ok (b, none) ∧ i.toNewBlock = .ok b ∧ Part P t b := by
  have hu := unquote_all stop hf hn
  obtain ⟨e, e1, e2⟩ := unquoteLoop_spec stop hs h t [] [] [] rfl
    { tr := ⟨P.sens, []⟩, stopChar := none, nonslash := 0, nextPush := 0, seen := false }
    { tr := Partial.start, le1 := Nat.le_refl _, le2 := rfl, runEq := rfl, slashes := (by simp), unseen := (by simp),
      maximal := (by simp), seenIff := (by simp) }
  simp only [List.length_nil, pending, List.drop_nil, List.take_nil, List.nil_append] at e1 e2
  unfold takeUntilUnquote
  rw [h.chars]
  simp only [withIndices_eq 0 h.ascii, h.parent, e1, Res.ok_bind]
  generalize hq : (unquote stop [] t).1 = out at e2
  generalize hr : (unquote stop [] t).2 = res at e2
  cases e2 with
  | stop => rw [hu] at hr; cases hr
  | none st T run a1 a2 =>
    obtain ⟨b, b1, b2⟩ := h.part
    have hseen : st.seen = false := by
      cases hc : st.seen with
      | false => rfl
      | true =>
        obtain ⟨x, hx, hx'⟩ := a1.seenIff.mp hc
        rw [hn x hx] at hx'; cases hx'
    refine ⟨b, ?_, b1, b2⟩
    simp only [h0, Bool.false_eq_true, if_false, Res.ok_bind, hseen, b1]
    rfl

/-- The text of a window of a block with one reference has consecutive locations. -/
theorem Span.At.located (hm : Block.Mono P) (hp : P.content.length ≤ 1) (h : i.At P t) (h0 : t ≠ []) :
    ∃ l s, t = locate l s := by
  obtain ⟨ts, h1, h2, h3, _⟩ := Span.allSegments_mono h.good (by rw [h.parent]; exact hm)
  have hc := Span.segments_mono h.good (by rw [h.parent]; exact hm)
  have hts : ts = i.segments.items := by
    have : i.allSegments = .ok i.segments.items := by simp [Span.allSegments, hc]
    rw [h1] at this; injection this
  have hlen : ts.length ≤ 1 := by
    rw [hts]
    unfold Span.segments
    refine Nat.le_trans (spanSegs_length _ _ _ _) ?_
    have hw := Span.wf_contents h.good.1
    have hm' : Block.Mono i.parent := by rw [h.parent]; exact hm
    rw [Block.mono_eq] at hm'
    have := (CRef.segmentsList_mono _ hw (CRef.monoList_drop _ hm')).2
    refine Nat.le_trans this ?_
    simp only [Span.contents, List.length_drop, h.parent]
    omega
  rw [h.ltext] at h2
  match ts, hlen with
  | [], _ => exact absurd h2.symm h0
  | [⟨l', t'⟩], _ =>
    refine ⟨l', t', ?_⟩
    rw [← h2]
    simp [segsText_cons, segsText_nil, LStr.ltext]

theorem infix_locate {l : Location} {s : Str} {u : List LChar} (h : u <:+: locate l s) : ∃ l' s', u = locate l' s' := by
  obtain ⟨a, b, e⟩ := h
  refine ⟨l.after (s.take a.length), (s.drop a.length).take u.length, ?_⟩
  rw [locate_take, locate_drop, ← e]
  simp

theorem EvalLine.chars {line arg : List LChar} (h : EvalLine line arg) : ∀ x ∈ line, x.1 ∉ [';', '#', '\\'] := by
  cases h with
  | @mk l l' l'' kw gap arg h1 h2 h3 h4 h5 h6 =>
    intro x hx
    simp only [List.mem_cons, List.mem_append, List.not_mem_nil, or_false] at hx
    rcases hx with rfl | rfl | hx | hx | hx | rfl
    · show '$' ∉ _; decide
    · show '(' ∉ _; decide
    · have : x.1 ∈ textOf kw := mem_textOf.mpr ⟨x, hx, rfl⟩
      rw [h1] at this
      exact (by decide : ∀ c ∈ "eval".toList, c ∉ [';', '#', '\\']) x.1 this
    · rcases h2 x hx with e | e <;> rw [e] <;> decide
    · exact h6 x hx
    · show ')' ∉ _; decide

/-- The line as a dollar sign and something in parentheses. -/
theorem EvalLine.shape {line arg : List LChar} (h : EvalLine line arg) : ∃ l l' l'' inside,
    line = ('$', l) :: ('(', l') :: (inside ++ [(')', l'')]) ∧ Balanced inside ∧ calls inside = some (.eval, arg) := by
  cases h with
  | @mk l l' l'' kw gap arg h1 h2 h3 h4 h5 h6 =>
    refine ⟨l, l', l'', kw ++ (gap ++ arg), by simp, ?_, ?_⟩
    · refine Tree.balanced_append' (Tree.balanced_of fun x hx => ?_) (Tree.balanced_append' (Tree.balanced_of fun x hx => ?_) h5)
      · have : x.1 ∈ textOf kw := mem_textOf.mpr ⟨x, hx, rfl⟩
        rw [h1] at this
        constructor <;> intro e <;> rw [e] at this <;> revert this <;> decide
      · rcases h2 x hx with e | e <;> rw [e] <;> decide
    · unfold calls
      have hp : "eval".toList.isPrefixOf (textOf (kw ++ (gap ++ arg))) = true := by
        rw [textOf_append, h1, List.isPrefixOf_iff_prefix]
        exact ⟨_, rfl⟩
      rw [List.find?_cons, show Fn.eval.name = "eval".toList from rfl, hp]
      simp only [Option.map_some, Option.some.injEq, Prod.mk.injEq, true_and]
      have hl : kw.length = "eval".toList.length := by rw [← h1]; exact (List.length_map _).symm
      rw [show Fn.eval.name = "eval".toList from rfl, ← hl, List.drop_left']
      · unfold skipBlanks
        have : ∀ g : List LChar, Blanks g → (g ++ arg).dropWhile (fun x => x.1 == ' ' || x.1 == '\t') = arg := by
          intro g hg
          induction g with
          | nil =>
            cases arg with
            | nil => rfl
            | cons x a =>
              have := h4 x rfl
              rw [List.nil_append, List.dropWhile_cons_of_neg]
              simpa using this
          | cons x g ih =>
            rw [List.cons_append, List.dropWhile_cons_of_pos]
            · exact ih fun y hy => hg y (by simp [hy])
            · simpa using hg x (by simp)
        exact this gap h2
      · rfl

theorem EvalLine.head {line arg : List LChar} (h : EvalLine line arg) : (textOf line).head? = some '$' := by
  cases h; rfl

/-- The line is parsed to a call. -/
theorem parseAst_evalLine (hm : Block.Mono P) {line arg : List LChar} {a : Ast} (hl : EvalLine line arg) (h : i.At P line)
    (hg : ∀ n, arg.length < n → GivesAst P n arg a) :
    ∃ r l, parseAst i = .ok (.done r (.eval l a)) ∧ r.At P [] := by
  obtain ⟨l, l', l'', inside, rfl, hb, hc⟩ := hl.shape
  have hlen : arg.length < i.length := by
    have := (calls_some hc).2
    rw [h.length]; simp; omega
  obtain ⟨r, e1, e2⟩ := givesAst_paren hm i.length (l := l) (l₁ := l') (a := .eval l a) rfl
    (fun j hj => advancedVar_call i.length hb hc (fun k hk => by
      obtain ⟨r, e1, e2⟩ := hg _ hlen k hk
      refine ⟨r, ?_, e2⟩
      show fnEval (parseAstF i.length) l k = _
      unfold fnEval
      rw [e1]; rfl) hj) i h
  exact ⟨r, l, e1, e2⟩

/-- A call that contributes nothing makes a line that does nothing else. -/
theorem parseTargetLine_eval (fs : Fs) {L : Block} {line arg : List LChar} {st st' : St} {a : Ast}
    (hL : L.content.length ≤ 1) (hm : Block.Mono L) (h : L.span.At L line) (hnl : Free '\n' line) (hl : EvalLine line arg)
    (hg : ∀ (Q : Block) n, Q.content.length ≤ 1 → Block.Mono Q → arg.length < n → GivesAst Q n arg a)
    (hcall : ∀ l, ∃ N, ∀ n, N ≤ n → ∃ b, (recF fs n).eval (.eval l a) st = .ok (b, st') ∧ b.content = []) :
    ∃ N rest, ∀ k, N ≤ k → parseTargetLine (recF fs k) L.span st = .ok (.done rest .noAction, st') := by
  have hch := hl.chars
  have hcom : Free '#' line := fun x hx he => hch x hx (by rw [he]; simp)
  have hbs : Free '\\' line := fun x hx he => hch x hx (by rw [he]; simp)
  have hev : trailingSlashes (textOf line) % 2 = 0 := by
    obtain ⟨l, l', l'', inside, rfl, _⟩ := hl.shape
    simp [textOf, trailingSlashes]
  obtain ⟨rest, L2, m1, _, m3, m4⟩ := makefileLine_one (strip := false) h (grabSpec_eof hcom hnl) hev
  have hm2 := m3.mono hL hm
  obtain ⟨b, e1, e0, e2⟩ := takeUntilUnquote_uncut (fun c => c == ';' || c == '#') (by decide) (by decide) m3.at hbs (by
    intro x hx
    have := hch x hx
    simp only [List.mem_cons, List.not_mem_nil, or_false, not_or] at this
    simp [this.1, this.2.1])
  have hbm := e2.mono hm2
  have hb1 : b.content.length ≤ 1 := Nat.le_trans (Span.toNewBlock_length e0) m4
  have hat : b.span.At b ([] ++ (line ++ [])) := by simpa using e2.at
  obtain ⟨l, l', l'', inside, hshape, hbal, _⟩ := hl.shape
  obtain ⟨ln, m, reason, w1, w2, w3, w4⟩ := nextMword_scanned hat (by intro x hx; cases hx)
    (by rw [hshape]; exact .ref hbal .nil) (by rw [hshape]; simp) .eof
  have w3 : m.At b line := by simpa [WordStop.extra] using w3
  obtain ⟨r, l0, f1, _⟩ := parseAst_evalLine hbm hl w3 (fun n hn => hg b n hb1 hbm hn)
  obtain ⟨N, hN⟩ := hcall l0
  refine ⟨N, rest, fun k hk => ?_⟩
  obtain ⟨v, v1, v2⟩ := hN k hk
  have hvb : Buf [] v := by
    rcases v with ⟨sens, content⟩
    simp only at v2
    subst v2
    exact ⟨rfl, trivial, fun c hc => by cases hc⟩
  have hseg : expandSegment (recF fs k) m st = .ok (.ok v, st') := by
    unfold expandSegment
    simp only [f1, ok_bind, v1]
    rfl
  have hlen : v.len = 0 := by rw [hvb.len]; rfl
  have hloop : wordLoop (recF fs k) (b.len + 2) ln m reason Block.empty none st = .ok (.noAction, st') := by
    rw [wordLoop]
    simp only [hseg, ok_bind, semicolonInWord_none (recF fs k) hvb (by intro x hx; cases hx) (by intro x hx; cases hx) ln none st',
      if_pos hlen]
    rfl
  have hfin : (do
      let (res, st) ← wordLoop (recF fs k) (b.len + 2) ln m reason Block.empty none st
      match res with
      | .err e => return (.err e, st)
      | .noAction => return (.done rest .noAction, st)
      | .finished preColon afterColon lineNext postSemi mwt =>
        if mwt = .eol then do
          match ← whitespace preColon.span with
          | .err _ => .panic .unwrap
          | .done afterSpace _ =>
            if afterSpace.length = 0 then return (.done rest .noAction, st)
            else return (.err (.failure (.custom .missingSeparator)), st)
        else do
          let afterColon ← runwrap afterColon
          finishRule (recF fs k) rest preColon afterColon lineNext postSemi st : Res (IRes TargetAction × St)) =
      .ok (.done rest .noAction, st') := by
    rw [hloop]
    rfl
  unfold parseTargetLine
  refine Res.bind_eq_ok.mpr ⟨_, m1, ?_⟩
  refine Res.bind_eq_ok.mpr ⟨(b, none), by rw [e1]; rfl, ?_⟩
  refine Res.bind_eq_ok.mpr ⟨_, w1, ?_⟩
  rcases w4 with h | h <;> subst h <;> exact hfin

theorem EvalLine.not_condLike {line arg : List LChar} (h : EvalLine line arg) : ¬ CondLike line := by
  intro hc
  cases h with
  | mk =>
    cases hc with
    | @word w hw hp =>
      simp only [textOf_cons, List.map_cons] at hp
      simp only [List.mem_cons, List.not_mem_nil, or_false] at hw
      rcases hw with rfl | rfl | rfl | rfl <;>
      · have := (List.cons_prefix_cons.mp hp).1
        revert this; decide
    | @eq a b e ha _ =>
      cases a with
      | nil => revert ha; decide
      | cons x a =>
        injection e with e1 _
        subst e1
        simp only [textOf_cons, List.map_cons, List.mem_cons, List.not_mem_nil, or_false] at ha
        rcases ha with ha | ha <;>
        · injection ha with h1 _
          revert h1; decide

theorem EvalLine.not_directiveLike {line arg : List LChar} (h : EvalLine line arg) : ¬ DirectiveLike line := by
  rintro ⟨w, hw, hp⟩
  cases h with
  | mk =>
    simp only [textOf_cons, List.map_cons] at hp
    unfold directiveWords at hw
    simp only [List.mem_cons, List.not_mem_nil, or_false] at hw
    rcases hw with rfl | rfl | rfl | rfl | rfl | rfl | rfl | rfl <;>
    · have := (List.cons_prefix_cons.mp hp).1
      revert this; decide

private def nameB (c : Char) : Bool := !isWhitespace c && c != ':' && c != '=' && c != '!' && c != '?' && c != '+'

private theorem nameB_of {c : Char} (h : NameChar c) : nameB c = true := by
  obtain ⟨h1, h2, h3, h4, h5, h6⟩ := h
  simp [nameB, *]

private theorem dropName {n r : Str} (h : ∀ c ∈ n, nameB c = true) (hr : ∀ c, r.head? = some c → nameB c = false) :
    (n ++ r).dropWhile nameB = r := by
  induction n with
  | nil =>
    cases r with
    | nil => rfl
    | cons c r => rw [List.nil_append, List.dropWhile_cons_of_neg (by simp [hr c rfl])]
  | cons c n ih =>
    rw [List.cons_append, List.dropWhile_cons_of_pos (h c (by simp))]
    exact ih fun d hd => h d (by simp [hd])

private theorem dropGap {g r : Str} (h : ∀ c ∈ g, c = ' ' ∨ c = '\t') (hr : ∀ c, r.head? = some c → ¬ (c = ' ' ∨ c = '\t')) :
    (g ++ r).dropWhile (fun c => c == ' ' || c == '\t') = r := by
  induction g with
  | nil =>
    cases r with
    | nil => rfl
    | cons c r => rw [List.nil_append, List.dropWhile_cons_of_neg (by simpa using hr c rfl)]
  | cons c n ih =>
    rw [List.cons_append, List.dropWhile_cons_of_pos (by simpa using h c (by simp))]
    exact ih fun d hd => h d (by simp [hd])

/-- A call is not taken for an assignment, unless its argument begins like an assignment operator. -/
theorem EvalLine.not_varLike {line arg : List LChar} (h : EvalLine line arg)
    (ha : ∀ c, (textOf arg).head? = some c → c ∉ ['=', ':', '+', '?', '!']) : ¬ VarLike line := by
  cases h with
  | @mk l l' l'' kw gap arg h1 h2 h3 h4 h5 h6 =>
  intro hv
  have htext : textOf (('$', l) :: ('(', l') :: (kw ++ (gap ++ (arg ++ [(')', l'')])))) =
      "$(eval".toList ++ (textOf gap ++ (textOf arg ++ [')'])) := by
    simp only [textOf_cons, textOf_append, h1]
    rfl
  have hword : ∀ w ∈ varWords, ¬ w <+: (textOf (('$', l) :: ('(', l') :: (kw ++ (gap ++ (arg ++ [(')', l'')]))))).map lower := by
    intro w hw hp
    simp only [textOf_cons, List.map_cons] at hp
    unfold varWords at hw
    simp only [List.mem_cons, List.not_mem_nil, or_false] at hw
    rcases hw with rfl | rfl | rfl | rfl | rfl <;>
    · have := (List.cons_prefix_cons.mp hp).1
      revert this; decide
  generalize hline : ('$', l) :: ('(', l') :: (kw ++ (gap ++ (arg ++ [(')', l'')]))) = line at hv htext hword
  clear hline
  cases hv with
  | assign hx =>
    cases hx with
    | mk name gap' op gap'' value ty n1 n2 n3 n4 n5 =>
      have hop : ∃ c cs, textOf op = c :: cs ∧ c ∈ ['=', ':', '+', '?', '!'] := by
        generalize textOf op = s at n3
        cases n3 <;> exact ⟨_, _, rfl, by decide⟩
      obtain ⟨c, cs, hc, hc'⟩ := hop
      have hopc : ∀ d ∈ ['=', ':', '+', '?', '!'], nameB d = false ∧ ¬ (d = ' ' ∨ d = '\t') := by decide
      have hbl : ∀ d, d = ' ' ∨ d = '\t' → nameB d = false := by rintro d (rfl | rfl) <;> decide
      have hgap : ∀ c ∈ textOf gap, c = ' ' ∨ c = '\t' := fun c hc => by
        obtain ⟨x, hx, rfl⟩ := mem_textOf.mp hc; exact h2 x hx
      have hgap' : ∀ c ∈ textOf gap', c = ' ' ∨ c = '\t' := fun c hc => by
        obtain ⟨x, hx, rfl⟩ := mem_textOf.mp hc; exact n2 x hx
      have hr : ∀ d, (textOf arg ++ [')']).head? = some d → d ∉ ['=', ':', '+', '?', '!'] ∧ ¬ (d = ' ' ∨ d = '\t') := by
        intro d hd
        cases arg with
        | nil => cases hd; decide
        | cons y a =>
          cases hd
          exact ⟨ha _ rfl, h4 y rfl⟩
      have e1 := congrArg (List.dropWhile nameB) htext
      simp only [textOf_append] at e1
      rw [dropName (fun d hd => by obtain ⟨x, hx, rfl⟩ := mem_textOf.mp hd; exact nameB_of (n1 x hx)) (by
          intro d hd
          cases hg : textOf gap' with
          | nil =>
            rw [hg, hc] at hd
            cases hd
            exact (hopc c hc').1
          | cons y g =>
            rw [hg] at hd
            cases hd
            exact hbl _ (hgap' _ (by rw [hg]; simp))),
        dropName (by decide) (by
          intro d hd
          cases gap with
          | nil => exact absurd rfl h3
          | cons y g =>
            cases hd
            exact hbl _ (h2 y (by simp)))] at e1
      have e2 := congrArg (List.dropWhile fun c => c == ' ' || c == '\t') e1
      rw [dropGap hgap' (by
          intro d hd
          rw [hc] at hd
          cases hd
          exact (hopc c hc').2), dropGap hgap (fun d hd => (hr d hd).2)] at e2
      refine (hr c ?_).1 hc'
      rw [← e2, hc]
      rfl
  | define h => exact hword _ (by simp [varWords]) h
  | undefine h => exact hword _ (by simp [varWords]) h
  | @modifier kw gap line hk _ _ _ =>
    refine hword ((textOf kw).map lower) ?_ ?_
    · simp only [varWords, List.mem_cons, List.not_mem_nil, or_false] at hk ⊢
      rcases hk with h | h | h <;> simp [h]
    · rw [textOf_append, List.map_append]
      exact List.prefix_append _ _

/-- A line that is a call: after the call the current rule is complete. -/
theorem parseLine_eval (fs : Fs) {line rest arg : List LChar} {p : PState} {st st' : St} {a : Ast}
    (h : AtLine P i t line rest p st) (h3 : Physical t line rest)
    (ho : p.currentRule = none ∨ (textOf t).head? ≠ some st.commandChar) (ha : p.ignoring = false) (h4 : st.commandChar ≠ '$')
    (h6 : ¬ VarLike line) (hl : EvalLine line arg)
    (hg : ∀ (Q : Block) n, Q.content.length ≤ 1 → Block.Mono Q → arg.length < n → GivesAst Q n arg a)
    (hcall : ∀ l, ∃ N, ∀ n, N ≤ n → ∃ b, (recF fs n).eval (.eval l a) st = .ok (b, st') ∧ b.content = []) :
    ∃ N j, j.At P rest ∧ ∀ n, N ≤ n → parseLine fs (recF fs n) p st i =
      (p.closeRule st').bind fun (p, st) => .ok (.done j (), p, st) := by
  obtain ⟨j, b, e1, e2, e3, e4⟩ := makefileLine_physical h.at_ h3 h.comment
  have hat := e3.at
  have hbm := e3.mono h.pieces h.mono
  have hdrop : line.dropWhile lblank = line := by
    cases h3 with
    | mk _ _ hh _ _ => exact dropWhile_solid fun x hx => by simpa using fun hb => hh x hx (lblank_iff.mp hb)
  have hnl : Free '\n' line := by
    cases h3 with
    | mk _ hl _ hl' _ => exact hl
  have hne : line ≠ [] := by cases hl; simp
  have hlen : b.len ≠ 0 := by
    have := hat.length
    have e : b.span.length = b.len := rfl
    rw [← e, this]
    simpa using hne
  obtain ⟨N, rest', f4⟩ := parseTargetLine_eval fs e4 hbm hat hnl hl hg hcall
  refine ⟨N, j, e2, fun n hn => ?_⟩
  rw [parseLine_collapsed fs _ h.at_ h.comment h.define h.command ho]
  obtain ⟨k, hv⟩ := parseVariableLine_none (recF fs n) st hat (by rw [hdrop]; exact h6)
  unfold parseCollapsed
  simp only [e1, ok_bind, if_neg hlen, parseConditionalLine_none hat (by rw [hdrop]; exact hl.not_condLike),
    if_neg (show ¬ p.ignoring = true by rw [ha]; decide)]
  unfold parseStatement
  have h4' : ¬ (textOf line).head? = some st.commandChar := by
    rw [hl.head]
    intro e
    exact h4 (Option.some.inj e).symm
  simp only [hv, ok_bind, parseDirectiveLine_none hat hl.not_directiveLike, Nom.firstChar_at hat, if_neg h4', f4 n hn]
  cases p.closeRule st' <;> rfl

/-- What `eval` processes, given the value of its argument. -/
theorem evalCall_block {c : Block} (hc : Block.WF c) :
    ∃ w, Block.new (Sens.union [] c.sens) [CRef.ofNode (.evaluated c)] = .ok w ∧ Block.ltext w = Block.ltext c ∧
      Block.WF w ∧ w.Solid ∧ w.content.length ≤ 1 ∧ (c.content.length ≤ 1 → Block.Mono c → Block.Mono w) := by
  have hw : CRef.WFList [CRef.ofNode (.evaluated c)] := ⟨CRef.ofNode_wf (n := .evaluated c) hc, trivial⟩
  obtain ⟨w, h1, h2, _, h4, h5, h6, h7⟩ := Block.new_spec (sens := Sens.union [] c.sens) hw
  refine ⟨w, h1, ?_, h5, h6, Block.new_length h1, fun k1 k2 => h7 ⟨⟨k1, k2⟩, trivial⟩⟩
  rw [h2]
  simp only [CRef.ltextList, CRef.ofNode_ltext (n := .evaluated c) hc, Node.ltext, List.append_nil]

/-- A call succeeds if its argument has a value and this can be processed. -/
theorem evalCall_ok {fs : Fs} {a : Ast} {st st1 st' : St} {c w : Block} {n : Nat} {p' : PState}
    (h : (recF fs n).eval a st = .ok (c, st1)) (h1 : Block.new (Sens.union [] c.sens) [CRef.ofNode (.evaluated c)] = .ok w)
    (hat : w.span.At w (Block.ltext w)) (hp : Proc fs w.span PState.new st1 p' st') (l : Location) :
    ∃ N, ∀ n, N ≤ n → ∃ b, (recF fs n).eval (.eval l a) st = .ok (b, st') ∧ b.content = [] := by
  obtain ⟨N, hN⟩ := Proc.block hat hp
  refine ⟨max n N + 1, fun k hk => ?_⟩
  obtain ⟨k, rfl⟩ : ∃ j, k = j + 1 := ⟨k - 1, by omega⟩
  have h' : (recF fs k).eval a st = .ok (c, st1) := ((recF_le fs (by omega : n ≤ k)).eval a st).ok h
  refine ⟨⟨Sens.union [] c.sens, []⟩, ?_, rfl⟩
  have : (recF fs (k + 1)).evalInternal (.eval l a) st = .ok ((Sens.union [] c.sens, []), st') := by
    show evalStep (recF fs k) (.eval l a) st = _
    simp only [evalStep, h', ok_bind, h1]
    have hp : (recF fs k).processBlock w st1 = _ := hN k (by omega)
    rw [hp]
    rfl
  simp only [Rec.eval, this, ok_bind]
  rfl

/-- A text as argument. -/
theorem evalText (fs : Fs) {arg : List LChar} (hd : Free '$' arg) (hloc : arg ≠ [] → ∃ l s, arg = locate l s) (ha : AsciiS (textOf arg)) :
    ∃ a c, (∀ (Q : Block) n, Q.content.length ≤ 1 → Block.Mono Q → arg.length < n → GivesAst Q n arg a) ∧
      Block.WF c ∧ c.content.length ≤ 1 ∧ Block.Mono c ∧ Block.ltext c = arg ∧
      (∀ st, (recF fs 2).eval a st = .ok (c, st)) ∧ a.WF ∧ a.flat = Expr.text arg := by
  by_cases h0 : arg = []
  · subst h0
    refine ⟨.empty .synthetic, ⟨[], []⟩, fun Q n _ hm hn i h => ?_, trivial, by simp, trivial, rfl, fun st => rfl,
      trivial, rfl⟩
    obtain ⟨n, rfl⟩ : ∃ k, n = k + 1 := ⟨n - 1, by simp at hn; omega⟩
    rw [parseAstF, Span.location_mono h.good (by rw [h.parent]; exact hm), h.ltext]
    exact ⟨_, rfl, h⟩
  · obtain ⟨l, s, rfl⟩ := hloc h0
    have hs : AsciiS s := by rwa [textOf_locate] at ha
    have h0' : s ≠ [] := fun e => h0 (by rw [e]; rfl)
    have hd' : '$' ∉ s := fun hm => by
      rw [free_iff, textOf_locate] at hd
      exact hd hm
    obtain ⟨c, c1, c2, _, _, c5, c6, c7⟩ := Block.new_spec (sens := []) (cs := [CRef.ofNode (.constant ⟨l, s⟩)])
      ⟨CRef.ofNode_wf (n := .constant ⟨l, s⟩) hs, trivial⟩
    refine ⟨.constant l ⟨l, s⟩, c, fun Q n h1 hm hn => ?_, c5, Block.new_length c1, c7 ⟨trivial, trivial⟩, ?_, fun st => ?_, hs,
      rfl⟩
    · obtain ⟨n, rfl⟩ : ∃ k, n = k + 1 := ⟨n - 1, by omega⟩
      exact givesAst_text hm h1 n h0' hd'
    · rw [c2]
      simp only [CRef.ltextList, List.append_nil, CRef.ofNode_ltext (n := .constant ⟨l, s⟩) hs]
      rfl
    · have : (recF fs 2).evalInternal (.constant l ⟨l, s⟩) st = .ok (([], [CRef.ofNode (.constant ⟨l, s⟩)]), st) := rfl
      simp only [Rec.eval, this, ok_bind, c1]
      rfl

end Hastur
