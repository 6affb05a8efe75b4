import Verif.Spec.RefRule
import Verif.Proofs.RuleDemo
/-
Lemmas: lines that consist of a reference, and rules that come from the value of a variable.
-/
namespace Hastur

open Res Span

variable {P : Block} {t : List LChar} {i : Span}

theorem RefLine.segment {line name : List LChar} (h : RefLine line name) : Segment line := by
  cases h with
  | mk h1 h2 h3 => exact .ref h1 h2 h3 .nil

theorem RefLine.chars {line name : List LChar} (h : RefLine line name) : ∀ x ∈ line, x.1 ∉ [';', '#', '\\'] := by
  cases h with
  | mk h1 h2 h3 =>
    intro x hx
    simp only [List.mem_cons, List.mem_append, List.not_mem_nil, or_false] at hx
    rcases hx with rfl | rfl | hx | rfl
    · show '$' ∉ _; decide
    · show '(' ∉ _; decide
    · exact h3 x hx
    · show ')' ∉ _; decide

/-- A line that is a reference is parsed to a reference. -/
theorem parseAst_ref (hm : Block.Mono P) {line name : List LChar} {ns : List Expr} (hl : RefLine line name) (h : i.At P line)
    (hn : Reads name (.ok ns)) :
    ∃ r l a, parseAst i = .ok (.done r (.varRef l a)) ∧ a.flat = ns ∧ a.WF := by
  cases hl with
  | @mk l l' l'' _ hb hcalls hch =>
    have hloc := Span.location_mono h.good (by rw [h.parent]; exact hm)
    rw [h.ltext] at hloc
    have hlen : i.length > 0 := by rw [h.length]; simp
    unfold parseAst
    rw [parseAstF, hloc]
    simp only [ok_bind, List.head?_cons, Option.map_some]
    rw [parseAstLoop, if_pos hlen]
    obtain ⟨u1, _⟩ := Nom.takeUntil_at h (c := '$') (by decide)
    obtain ⟨r, q, e1, e2, e3⟩ := u1 (by simp [textOf])
    simp only [List.dropWhile_cons, List.takeWhile_cons, bne_self_eq_false, Bool.false_eq_true, if_false] at e2 e3
    obtain ⟨r', q', e4, e5, e6⟩ := (Nom.tag_at e2 (w := ['$']) (by unfold AsciiS; decide)).1 (by simp [textOf])
    simp only [List.length_singleton, List.drop_succ_cons, List.drop_zero, List.take_succ_cons, List.take_zero] at e5 e6
    have hloc' := Span.location_mono e6.good (by rw [e6.parent]; exact hm)
    rw [e6.ltext] at hloc'
    obtain ⟨ts, g1, g2, g4, g3⟩ := Span.allSegments_mono e3.good (by rw [e3.parent]; exact hm)
    rw [e3.ltext] at g2
    have hts : ts = [] := by
      cases ts with
      | nil => rfl
      | cons s ts =>
        exfalso
        rw [segsText_cons] at g2
        have h0 := (List.append_eq_nil_iff.mp g2).1
        have := g4 s List.mem_cons_self
        apply this
        have h1 : (textOf s.ltext) = [] := by rw [h0]; rfl
        rwa [LStr.ltext, textOf_locate] at h1
    subst hts
    simp only [e1, done_andThen, e4, hloc', Res.ok_bind, List.head?_cons, Option.map_some, runwrap, Res.done, done_orElse, g1,
      List.map_nil, List.append_nil]
    -- the reference
    have hv : ∃ r a, parseVarRef (parseAstF i.length) l r' = .ok (.done r (.varRef l a)) ∧ r.At P [] ∧ a.flat = ns ∧ a.WF := by
      unfold parseVarRef
      rw [Nom.eof_at e5, if_neg (by simp)]
      simp only [err_mapP, error_orElse]
      rw [(Nom.tag_at e5 (w := ['$']) (by unfold AsciiS; decide)).2 (by
        intro hp
        simp only [textOf_cons, List.cons_prefix_cons] at hp
        exact absurd hp.1 (by decide))]
      simp only [err_andThen, error_orElse]
      obtain ⟨r1, f1, f2⟩ := (Nom.char_at e5 (c := '(') (by decide)).1 _ _ rfl
      rw [f1]
      simp only [done_andThen]
      have hadv : ∃ r a, advancedVar (parseAstF i.length) l '(' ')' r1 = .ok (.done r (.varRef l a)) ∧ r.At P [] ∧
          a.flat = ns ∧ a.WF := by
        unfold advancedVar
        rw [f2.chars]
        simp only [Span.withIndices_eq 0 f2.ascii]
        rw [show (1 : Nat) = 0 + 1 from rfl, balance_eq, closing_of_balanced hb]
        obtain ⟨r2, q2, s1, s2, s3⟩ := f2.takeSplit (n := name.length + 1) (by simp)
        have hd : (name ++ [(')', l'')]).drop (name.length + 1) = [] := by simp
        have ht : (name ++ [(')', l'')]).take (name.length + 1) = name ++ [(')', l'')] := by simp
        rw [hd] at s2
        rw [ht] at s3
        have s4 := s3.sliceTo (n := name.length) (by simp)
        have ht2 : (name ++ [(')', l'')]).take name.length = name := by simp
        rw [ht2] at s4
        simp only [Option.map_some, Nat.zero_add, s1, Res.ok_bind]
        have hl : q2.length = name.length + 1 := by rw [s3.length]; simp
        have hu : usub q2.length 1 = .ok name.length := by simp [usub, hl]
        rw [hu]
        simp only [Res.ok_bind]
        rw [(functionCall_at s4 _ l).1 hcalls]
        simp only [Res.ok_bind, if_true]
        obtain ⟨r3, a, k1, k2, k3, k4⟩ := parseAstF_at i.length P name _ _ (by rw [h.length]; simp; omega) hm s4 hn
        rw [k1, done_andThen]
        exact ⟨r2, a, rfl, s2, k3, k4⟩
      obtain ⟨r2, a, k1, k2⟩ := hadv
      refine ⟨r2, a, ?_, k2⟩
      rw [k1]
      rfl
    obtain ⟨r2, a, v1, v2, v3, v4⟩ := hv
    refine ⟨r2, l, a, ?_, v3, v4⟩
    rw [v1, done_andThen]
    have : i.length = (i.length - 1) + 1 := by omega
    have h0 : ¬ r2.length > 0 := by rw [v2.length]; simp
    have : parseAstLoop (parseAstF i.length) i.length r2 ([] ++ [Ast.varRef l a]) = .ok (.done r2 [Ast.varRef l a]) := by
      conv => lhs; arg 2; rw [this]
      rw [parseAstLoop, if_neg h0]
      rfl
    rw [this]
    rfl

/-- A text stored in one piece is good for further parsing. -/
theorem eval_stored (fs : Fs) {a : Ast} {u : List LChar} (hw : a.WF) (h : StoredText a u) :
    ∃ c, (∀ k st, (recF fs (k + 1)).eval a st = .ok (c, st)) ∧ Block.ltext c = u ∧ Block.WF c ∧ c.content.length ≤ 1 ∧
      Block.Mono c := by
  cases h with
  | constant l v =>
    have hvw : AsciiS v.contents := hw
    obtain ⟨c, c1, c2, _, _, c5, c6, c7⟩ := Block.new_spec (sens := []) (cs := [CRef.ofNode (.constant v)])
      ⟨CRef.ofNode_wf (n := .constant v) hvw, trivial⟩
    refine ⟨c, fun k st => ?_, ?_, c5, Block.new_length c1, c7 ⟨trivial, trivial⟩⟩
    · show (do let x ← (recF fs (k + 1)).evalInternal (.constant l v) st; _ : Res _) = _
      have : (recF fs (k + 1)).evalInternal (.constant l v) st = .ok (([], [CRef.ofNode (.constant v)]), st) := rfl
      rw [this]
      simp only [ok_bind, c1]
      rfl
    · rw [c2]
      simp only [CRef.ltextList, List.append_nil, CRef.ofNode_ltext (n := .constant v) hvw]
      rfl
  | @expanded l b h1 h2 =>
    have hb : CRef.WFList b.content := by rw [← Block.wf_eq]; exact hw
    obtain ⟨c, c1, c2, _, _, c5, c6, c7⟩ := Block.new_spec (sens := []) (cs := b.content) hb
    refine ⟨c, fun k st => ?_, ?_, c5, Nat.le_trans (Block.new_length c1) h1, c7 (by rw [← Block.mono_eq]; exact h2)⟩
    · show (do let x ← (recF fs (k + 1)).evalInternal (.preEvaluated l b) st; _ : Res _) = _
      have : (recF fs (k + 1)).evalInternal (.preEvaluated l b) st = .ok (([], b.content), st) := rfl
      rw [this]
      simp only [ok_bind, c1]
      rfl
    · rw [c2]
      rcases b with ⟨s, cs⟩
      rfl

/-- The value of a variable that holds a text is good for further parsing. -/
theorem eval_holds (fs : Fs) {st : St} (hst : st.WF) {l : Location} {a : Ast} {n u : List LChar} {vs : List Str}
    (ha : a.WF) (hn : Expands st.env a.flat n vs) (hs : ¬ IsSubst (textOf n)) (hv : st.HoldsText (textOf n) u) :
    ∃ N b, Buf u b ∧ Block.Mono b ∧ b.content.length ≤ 1 ∧
      ∀ k, N ≤ k → (recF fs k).eval (.varRef l a) st = .ok (b, st.interned (vs ++ [textOf n])) := by
  obtain ⟨N, hN⟩ := evals_of_expands fs ha hst hn
  obtain ⟨nb, h1, h2, h3, h4, h5⟩ := hN.eval
  have hat := Block.span_at h4 h5
  rw [h2] at hat
  obtain ⟨e, he⟩ := colonFind_none hat hs
  have hstr : nb.intoString = .ok (textOf n) := by rw [Block.intoString_eq nb h4, Block.text, h2]
  have hw1 := hst.interned vs
  obtain ⟨hi, henv⟩ := hw1.intern (textOf n)
  obtain ⟨p, k1, k2⟩ := hv
  have hp : st.db.getVariable ((st.interned vs).names.internVar (textOf n)).1 = some p := by
    have hlook : ((st.interned vs).interned [textOf n]).lookup = st.lookup := by
      have e1 : (st.interned vs).lookup = st.lookup := hst.lookup_after rfl (cs := vs.map .var) rfl
      have e2 : ((st.interned vs).interned [textOf n]).lookup = (st.interned vs).lookup :=
        hw1.lookup_after rfl (cs := [textOf n].map .var) rfl
      rw [e2, e1]
    rw [← hlook] at k1
    unfold St.lookup at k1
    rw [hi] at k1
    exact k1
  -- the value
  have hmono : ∀ k, N ≤ k → (recF fs k).eval a st = .ok (nb, st.interned vs) := fun k hk => ((recF_le fs hk).eval a st).ok h1
  obtain ⟨c, hval, hct, c5, hcl, hcm⟩ := eval_stored fs (hst.values _ _ hp) k2
  obtain ⟨b, b1, b2, _, _, b5, b6, b7⟩ := Block.new_spec
    (sens := Sens.insert (Sens.union (Sens.union [] nb.sens) c.sens) ((st.interned vs).names.internVar (textOf n)).1)
    (cs := [CRef.ofNode (.varRef nb c)]) ⟨CRef.ofNode_wf (n := .varRef nb c) c5, trivial⟩
  have htext : Block.ltext b = u := by
    rw [b2]
    simp only [CRef.ltextList, CRef.ofNode_ltext (n := .varRef nb c) c5, Node.ltext, hct, List.append_nil]
  refine ⟨N + 2, b, ⟨htext, b5, b6⟩, b7 ⟨⟨hcl, hcm⟩, trivial⟩, Block.new_length b1, fun k hk => ?_⟩
  obtain ⟨k, rfl⟩ : ∃ j, k = j + 2 := ⟨k - 2, by omega⟩
  have hint : (recF fs (k + 2)).evalInternal (.varRef l a) st =
      .ok ((Sens.insert (Sens.union (Sens.union [] nb.sens) c.sens) ((st.interned vs).names.internVar (textOf n)).1,
        [CRef.ofNode (.varRef nb c)]), st.interned (vs ++ [textOf n])) := by
    show evalStep (recF fs (k + 1)) (.varRef l a) st = _
    simp only [evalStep, evalVarRef, hmono (k + 1) (by omega), ok_bind, he, hstr, derefVariable, St.interned_db, hp, hval,
      Res.pure_eq]
    rw [St.interned_append]
    rfl
  show (do let x ← (recF fs (k + 2)).evalInternal (.varRef l a) st; _ : Res _) = _
  rw [hint]
  simp only [ok_bind, b1]
  rfl

/-- Evaluating a line that is a reference to a variable that holds a text. -/
theorem expandSegment_holds (fs : Fs) {st : St} (hst : st.WF) (hm : Block.Mono P) {line name n u : List LChar}
    {ns : List Expr} {vs : List Str} (hl : RefLine line name) (h : i.At P line) (hr : Reads name (.ok ns))
    (hn : Expands st.env ns n vs) (hs : ¬ IsSubst (textOf n)) (hv : st.HoldsText (textOf n) u) :
    ∃ N b, Buf u b ∧ Block.Mono b ∧
      ∀ k, N ≤ k → expandSegment (recF fs k) i st = .ok (.ok b, st.interned (vs ++ [textOf n])) := by
  obtain ⟨r, l, a, e1, e2, e3⟩ := parseAst_ref hm hl h hr
  subst e2
  obtain ⟨N, b, g1, g2, _, g3⟩ := eval_holds fs hst (l := l) e3 hn hs hv
  refine ⟨N, b, g1, g2, fun k hk => ?_⟩
  unfold expandSegment
  simp only [e1, ok_bind, g3 k hk]
  rfl

/-- Cutting the command off the value of the last word of a line. -/
theorem semicolonInWord_rule (fs : Fs) {L b : Block} {ln : Span} {u tt after ds : List LChar} {double : Bool}
    {command : Option (List LChar)} (hL : Block.Mono L) (hln : ln.At L []) (hb : Buf u b) (hbm : Block.Mono b)
    (hr : RuleText u tt double after ds command) (htt : FileNames tt) (hvar : ¬ VarLike (after.dropWhile lblank)) (st : St) :
    ∃ cs b' ln' postSemi, textOf cs = (if double then "::".toList else ":".toList) ∧
      (∀ x ∈ ds, x.1 ∉ [':', '=', ';', '#', '\\']) ∧ ¬ VarLike ((afterText ds command).dropWhile lblank) ∧
      CommandAt command postSemi ∧ Buf (tt ++ (cs ++ ds)) b' ∧ Block.Mono b' ∧ ln'.At L [] ∧
      ∀ k, 2 ≤ k → semicolonInWord (recF fs k) b ln none st = .ok (.ok (b', ln', postSemi), st) := by
  obtain ⟨f1, _, f3⟩ := fileNames_free htt
  have good : ∀ {cs : List LChar} {c : Char}, textOf cs = (if double then "::".toList else ":".toList) →
      (∀ x ∈ ds, x.1 ∉ [':', '=', ';', '#', '\\']) → c ∈ [';', '\\'] → Free c tt → Free c (tt ++ (cs ++ ds)) := by
    intro cs c hc hd hm ht
    rw [Free.append, Free.append]
    refine ⟨ht, fun x hx he => ?_, fun x hx he => hd x hx ?_⟩
    · have h1 : x.1 ∈ textOf cs := mem_textOf.mpr ⟨x, hx, rfl⟩
      rw [hc] at h1
      have h2 : x.1 = ':' := by cases double <;> simpa using h1
      rw [← he, h2] at hm
      revert hm; decide
    · rw [he]
      revert hm
      simp only [List.mem_cons, List.not_mem_nil, or_false]
      rintro (rfl | rfl) <;> simp
  cases hr with
  | @plain _ cs _ _ hc hd =>
    exact ⟨cs, b, ln, none, hc, hd, hvar, .none, hb, hbm, hln, fun k _ =>
      semicolonInWord_none _ hb (good hc hd (by decide) f1) (good hc hd (by decide) f3) _ _ _⟩
  | @command _ cs _ cmd _ l hc hd =>
    have hb' : b.span.At b ((tt ++ (cs ++ ds)) ++ (';', l) :: cmd) := by simpa using hb.at
    obtain ⟨pre, sc, post, e1, e2, e3, e4⟩ := takeUntilUnquote_hit (· == ';') (by decide) (by decide) hb'
      (good hc hd (by decide) f1) (fun x hx => by simpa using good hc hd (by decide) f3 x hx) (by simp)
    obtain ⟨pb, k1, k2⟩ := e4.part
    obtain ⟨nb, n1, n2, n3⟩ := expandSegment_text fs (hln.whole hL) hln (by intro x hx; cases hx) st
    obtain ⟨pb', p1, p2, p3⟩ := k2.buf.pushAll n1.at n1.solid
    have h0 : ln.length = 0 := by rw [hln.length]; rfl
    obtain ⟨ln', s1, s2⟩ := hln.sliceFrom (n := ln.length) (by rw [h0]; simp)
    refine ⟨cs, pre, ln', some pb', hc, hd, ?_, .some (by simpa using p2) (p3 (k2.mono hbm) fun h => absurd rfl h), e2.buf,
      e2.mono hbm, by simpa using s2, fun k hk => ?_⟩
    · intro hv
      refine hvar (hv.congr ?_)
      rw [textOf_dropBlank, textOf_dropBlank]
      simp [afterText]
    · unfold semicolonInWord
      simp only [e1, ok_bind, k1, n3 k hk, p1, s1]
      rfl

/-- A line that is a reference to a variable whose value is a rule. -/
theorem parseTargetLine_ref (fs : Fs) {L : Block} {line name n u tt after ds dt : List LChar} {double : Bool}
    {command : Option (List LChar)} {st : St} {ns des : List Expr} {vs us : List Str}
    (hL : L.content.length ≤ 1) (hm : Block.Mono L) (h : L.span.At L line) (hnl : Free '\n' line)
    (hl : RefLine line name) (hrn : Reads name (.ok ns)) (hn : Expands st.env ns n vs) (hs : ¬ IsSubst (textOf n))
    (hv : st.HoldsText (textOf n) u) (hrule : RuleText u tt double after ds command) (htt : FileNames tt)
    (hslash : (textOf ds).head? ≠ some '/') (hvar : ¬ VarLike (after.dropWhile lblank)) (hst : st.WF)
    (hdr : Reads ds (.ok des)) (hde : Expands st.env des dt us) (hdt : FileNames dt)
    {recipe : List (List Expr)} (hcr : CommandReads command recipe) :
    ∃ N rest targets deps a, Texts (wordsOf tt) targets ∧ Texts (wordsOf dt) deps ∧ FirstCommand recipe a ∧
      ∀ k, N ≤ k → parseTargetLine (recF fs k) L.span st =
        .ok (.done rest (.newRule targets deps double a), st.interned (vs ++ textOf n :: us)) := by
  have hch := hl.chars
  have hcom : Free '#' line := fun x hx he => hch x hx (by rw [he]; simp)
  have hbs : Free '\\' line := fun x hx he => hch x hx (by rw [he]; simp)
  have hev : trailingSlashes (textOf line) % 2 = 0 := by
    cases hl with
    | mk => simp [textOf, trailingSlashes]
  obtain ⟨rest, L2, m1, _, m3, _⟩ := makefileLine_one (strip := false) h (grabSpec_eof hcom hnl) hev
  have hm2 := m3.mono hL hm
  obtain ⟨b, e1, e2⟩ := takeUntilUnquote_miss (fun c => c == ';' || c == '#') (by decide) (by decide) m3.at hbs (by
    intro x hx
    have := hch x hx
    simp only [List.mem_cons, List.not_mem_nil, or_false, not_or] at this
    simp [this.1, this.2.1])
  have hbm := e2.mono hm2
  have hat : b.span.At b ([] ++ (line ++ [])) := by simpa using e2.buf.at
  obtain ⟨ln, m, reason, w1, w2, w3, w4⟩ := nextMword_segment hat (by intro x hx; cases hx) hl.segment
    (by cases hl; simp) .eof
  have w2 : ln.At b [] := w2
  have w3 : m.At b line := by simpa [WordStop.extra] using w3
  obtain ⟨N, v, v1, v2, v3⟩ := expandSegment_holds fs hst hbm hl w3 hrn hn hs hv
  obtain ⟨cs, v', ln', postSemi, c1, c2, c3, c4, c5, c6, c7, c8⟩ := semicolonInWord_rule fs hbm w2 v1 v2 hrule htt hvar
    (st.interned (vs ++ [textOf n]))
  obtain ⟨l, cs', rfl, hcs'⟩ := colons_split c1
  have hbuf : Buf (tt ++ (':', l) :: (cs' ++ ds)) v' := by simpa using c5
  obtain ⟨f1, f2, f3⟩ := fileNames_free htt
  obtain ⟨pre, post, p1, p2, p3⟩ := findColon_some hbuf f1 f2 (by
    cases double with
    | true =>
      rw [textOf_append, hcs']
      simp
    | false =>
      rw [textOf_append, hcs']
      refine ⟨hslash, fun hh => ?_⟩
      cases ds with
      | nil => simp at hh
      | cons y ds =>
        simp at hh
        exact c2 y List.mem_cons_self (by rw [hh]; simp))
  obtain ⟨aft, a1, a2⟩ := p3.part
  obtain ⟨buf', q1, q2⟩ := pushWord_at Buf.empty p2
  have hsp : spaced [] tt = tt := by simp [spaced]
  rw [hsp] at q2
  have hw := hst.interned (vs ++ [textOf n])
  obtain ⟨M, targets, deps, a, g1, g2, g3, g4⟩ := finishRule_at fs (rest := rest) (.inl hbm) e2.solid (extra := []) (by simpa using q2)
    htt (.inl rfl) a2.buf (fun _ => a2.mono c6) c7 (by simp) hcs' (fun x hx he => c2 x hx (by rw [he]; simp)) c4 c3 hw hdr
    (by rw [hst.env_interned]; exact hde) hdt hcr
  refine ⟨max (max N M) 2, rest, targets, deps, a, g1, g2, g3, fun k hk => ?_⟩
  have hlen : ¬ v'.len = 0 := by rw [c5.len]; simp
  have hloop : wordLoop (recF fs k) (b.len + 2) ln m reason Block.empty none st =
      .ok (.finished buf' (some aft) ln' postSemi reason, st.interned (vs ++ [textOf n])) := by
    rw [wordLoop]
    simp only [v3 k (by omega), ok_bind, c8 k (by omega), if_neg hlen, p1, a1, q1]
    rfl
  have hreason : reason ≠ .eol ∧ reason ≠ .colon ∧ reason ≠ .dcolon := by
    rcases w4 with h | h <;> rw [h] <;> decide
  unfold parseTargetLine
  refine Res.bind_eq_ok.mpr ⟨_, m1, ?_⟩
  refine Res.bind_eq_ok.mpr ⟨(b, none), by rw [e1]; rfl, ?_⟩
  refine Res.bind_eq_ok.mpr ⟨_, w1, ?_⟩
  have hfin : (do
      let (res, st) ← wordLoop (recF fs k) (b.len + 2) ln m reason Block.empty none st
      match res with
      | .err e => return (.err e, st)
      | .noAction => return (.done rest .noAction, st)
      | .finished preColon afterColon lineNext postSemi mwt =>
        if mwt = .eol then do
          match ← whitespace preColon.span with
          | .err _ => .panic .unwrap
          | .done afterSpace _ =>
            if afterSpace.length = 0 then return (.done rest .noAction, st)
            else return (.err (.failure (.custom .missingSeparator)), st)
        else do
          let afterColon ← runwrap afterColon
          finishRule (recF fs k) rest preColon afterColon lineNext postSemi st : Res (IRes TargetAction × St)) =
      .ok (.done rest (.newRule targets deps double a), st.interned (vs ++ textOf n :: us)) := by
    rw [hloop]
    simp only [ok_bind, if_neg hreason.1, runwrap]
    rw [g4 k (by omega), ← St.interned_append]
    simp
  rcases w4 with h | h <;> subst h <;> exact hfin

theorem RefLine.head {line name : List LChar} (h : RefLine line name) : (textOf line).head? = some '$' := by
  cases h; rfl

theorem RefLine.not_condLike {line name : List LChar} (h : RefLine line name) : ¬ CondLike line := by
  intro hc
  cases h with
  | mk =>
    cases hc with
    | @word w hw hp =>
      simp only [textOf_cons, List.map_cons] at hp
      simp only [List.mem_cons, List.not_mem_nil, or_false] at hw
      rcases hw with rfl | rfl | rfl | rfl <;>
      · have := (List.cons_prefix_cons.mp hp).1
        revert this; decide
    | @eq a b e ha _ =>
      cases a with
      | nil => revert ha; decide
      | cons x a =>
        injection e with e1 _
        subst e1
        simp only [textOf_cons, List.map_cons, List.mem_cons, List.not_mem_nil, or_false] at ha
        rcases ha with ha | ha <;>
        · injection ha with h1 _
          revert h1; decide

theorem RefLine.not_directiveLike {line name : List LChar} (h : RefLine line name) : ¬ DirectiveLike line := by
  rintro ⟨w, hw, hp⟩
  cases h with
  | mk =>
    simp only [textOf_cons, List.map_cons] at hp
    unfold directiveWords at hw
    simp only [List.mem_cons, List.not_mem_nil, or_false] at hw
    rcases hw with rfl | rfl | rfl | rfl | rfl | rfl | rfl | rfl <;>
    · have := (List.cons_prefix_cons.mp hp).1
      revert this; decide

theorem parseLine_ref (fs : Fs) {line rest name n u tt after ds dt : List LChar} {double : Bool} {p : PState} {st : St}
    {command : Option (List LChar)} {vs us : List Str} {ns des : List Expr} {recipe : List (List Expr)}
    (h : Ready P i t line rest p st) (h3 : Physical t line rest) (h4 : st.commandChar ≠ '$') (h6 : ¬ VarLike line)
    (hl : RefLine line name) (hrn : Reads name (.ok ns)) (hn : Expands st.env ns n vs) (hs : ¬ IsSubst (textOf n))
    (hv : st.HoldsText (textOf n) u) (hrule : RuleText u tt double after ds command) (htt : FileNames tt)
    (hslash : (textOf ds).head? ≠ some '/') (hvar : ¬ VarLike (after.dropWhile lblank))
    (hdr : Reads ds (.ok des)) (hde : Expands st.env des dt us) (hdt : FileNames dt) (hcr : CommandReads command recipe) :
    ∃ r : ProtoRule, LineGives fs P i p st rest { p with currentRule := some r } (st.interned (vs ++ textOf n :: us)) ∧
      r.targets.map Block.ltext = wordsOf tt ∧ r.deps.map Block.ltext = wordsOf dt ∧ r.recipe.map Ast.flat = recipe ∧
      r.ruleType = (if double then .doubleColon else .standard) := by
  obtain ⟨j, b, e1, e2, e3, e4⟩ := makefileLine_physical h.at_ h3 h.comment
  have hat := e3.at
  have hbm := e3.mono h.pieces h.mono
  have hdrop : line.dropWhile lblank = line := by
    cases h3 with
    | mk _ _ hh _ _ => exact dropWhile_solid fun x hx => by simpa using fun hb => hh x hx (lblank_iff.mp hb)
  have hf := h.comment
  have hnl : Free '\n' line := by
    cases h3 with
    | mk _ hl _ hl' _ => exact hl
  have hne : line ≠ [] := by cases hl; simp
  have hlen : b.len ≠ 0 := by
    have := hat.length
    have e : b.span.length = b.len := rfl
    rw [← e, this]
    simpa using hne
  obtain ⟨N, rest', targets, deps, a, f1, f2, f3, f4⟩ := parseTargetLine_ref fs e4 hbm hat hnl hl hrn hn hs hv hrule htt hslash
    hvar h.wf hdr hde hdt hcr
  have hrecipe : ∃ rs, handleTargetAction p (.newRule targets deps double a) = .ok { p with
        currentRule := some ⟨targets, deps, rs, if double then .doubleColon else .standard⟩ } ∧
      rs.map Ast.flat = recipe := by
    cases f3 with
    | none => exact ⟨[], rfl, rfl⟩
    | some _ => exact ⟨[_], rfl, rfl⟩
  obtain ⟨rs, k1, k2⟩ := hrecipe
  refine ⟨⟨targets, deps, rs, if double then .doubleColon else .standard⟩, ⟨N, j, e2, fun n hn => ?_⟩,
    f1.map_ltext, f2.map_ltext, k2, rfl⟩
  rw [parseLine_collapsed fs _ h.at_ hf h.define h.command (.inl h.rule)]
  obtain ⟨k, hv⟩ := parseVariableLine_none (recF fs n) st hat (by rw [hdrop]; exact h6)
  unfold parseCollapsed
  simp only [e1, ok_bind, if_neg hlen, parseConditionalLine_none hat (by rw [hdrop]; exact hl.not_condLike),
    if_neg (show ¬ p.ignoring = true by rw [h.active]; decide)]
  unfold parseStatement
  have hcl : ∀ ws, p.closeRule (st.interned ws) = .ok (p, st.interned ws) := by
    intro ws
    simp [PState.closeRule, h.rule]
  have h4' : ¬ (textOf line).head? = some st.commandChar := by
    rw [hl.head]
    intro e
    exact h4 (Option.some.inj e).symm
  simp only [hv, ok_bind, parseDirectiveLine_none hat hl.not_directiveLike, Nom.firstChar_at hat, if_neg h4', f4 n hn, hcl, k1]
  rfl

end Hastur
