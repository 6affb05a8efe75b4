import Verif.Proofs.Assign
/-
Lemmas: how the line dispatcher finds out what kind of line it has.
-/
namespace Hastur

open Res

variable {P : Block} {t : List LChar} {i : Span}

theorem condWords_ascii : ∀ w ∈ condWords, AsciiS w := by
  unfold AsciiS condWords
  decide

theorem condWords_lower : ∀ w ∈ condWords, w.map lower = w := by
  unfold condWords
  decide

theorem parseIfeq_none {line : List LChar} (h : i.At P line)
    (hc : (textOf line).head? ∉ [some '(', some '"', some '\'']) : parseIfeq i = .ok (.err (.error .code)) := by
  simp only [List.mem_cons, List.not_mem_nil, or_false, not_or] at hc
  unfold parseIfeq
  rw [(Nom.char_at h (by decide)).2 hc.1, (Nom.char_at h (by decide)).2 hc.2.1, (Nom.char_at h (by decide)).2 hc.2.2]
  rfl

/-- A line that does not look like a conditional is not one. -/
theorem parseConditionalLine_none {line : List LChar} (h : i.At P line) (hc : ¬ CondLike (line.dropWhile lblank)) :
    parseConditionalLine i = .ok (.err (.error .code)) := by
  obtain ⟨r, q, h1, h2, _⟩ := whitespace_at h
  generalize line.dropWhile lblank = u at hc h2
  have bad : ∀ w ∈ condWords, ¬ w <+: (textOf u).map lower → Nom.tagNoCase w r = .ok (.err (.error .code)) := by
    intro w hw hn
    refine (Nom.tagNoCase_at h2 (condWords_ascii w hw)).2 fun hp => hn ?_
    rwa [condWords_lower w hw] at hp
  have plain : ∀ w ∈ ["ifdef".toList, "ifndef".toList, "else".toList, "endif".toList], ¬ w <+: (textOf u).map lower :=
    fun w hw hp => hc (.word hw hp)
  have b1 := bad "ifdef".toList (by unfold condWords; decide) (plain _ (by decide))
  have b2 := bad "ifndef".toList (by unfold condWords; decide) (plain _ (by decide))
  have b5 := bad "else".toList (by unfold condWords; decide) (plain _ (by decide))
  have b6 := bad "endif".toList (by unfold condWords; decide) (plain _ (by decide))
  have good : ∀ w ∈ ["ifeq".toList, "ifneq".toList], w <+: (textOf u).map lower →
      ∃ s c s' q', Nom.tagNoCase w r = .ok (.done s c) ∧ whitespace s = .ok (.done s' q') ∧
        parseIfeq s' = .ok (.err (.error .code)) := by
    intro w hw hp
    have hw' : w ∈ condWords := by
      rcases List.mem_cons.mp hw with rfl | hw
      · unfold condWords; decide
      · cases List.mem_singleton.mp hw
        unfold condWords; decide
    obtain ⟨s, c, e1, e2, _⟩ := (Nom.tagNoCase_at h2 (condWords_ascii w hw')).1 (by rwa [condWords_lower w hw'])
    obtain ⟨s', q', e3, e4, _⟩ := whitespace_at e2
    refine ⟨s, c, s', q', e1, e3, parseIfeq_none e4 fun hin => hc ?_⟩
    refine .eq (a := u.take w.length) (b := u.drop w.length) (List.take_append_drop _ _).symm ?_ hin
    rw [textOf_take, List.map_take, ← List.prefix_iff_eq_take.mp hp]
    exact hw
  unfold parseConditionalLine parseCondF condKeyword
  rw [h1, done_andThen, b1, b2, b5, b6]
  by_cases p3 : "ifeq".toList <+: (textOf u).map lower
  · obtain ⟨s, c, s', q', e1, e2, e3⟩ := good _ (by decide) p3
    simp only [e1, error_orElse, done_mapP, err_mapP, done_orElse, done_andThen, e2, done_def, e3]
  · rw [bad _ (by unfold condWords; decide) p3]
    by_cases p4 : "ifneq".toList <+: (textOf u).map lower
    · obtain ⟨s, c, s', q', e1, e2, e3⟩ := good _ (by decide) p4
      simp only [e1, error_orElse, done_mapP, err_mapP, done_orElse, done_andThen, e2, done_def, e3]
    · rw [bad _ (by unfold condWords; decide) p4]
      rfl

/-- A text that does not go on with a comment character is not a comment. -/
theorem comment_none (h : i.At P t) (hc : (textOf (t.dropWhile lblank)).head? ≠ some '#') :
    parseCommentFollowingWhitespace i = .ok (.err (.error .code)) := by
  obtain ⟨r, q, h1, h2, _⟩ := whitespace_at h
  unfold parseCommentFollowingWhitespace
  rw [h1, done_andThen, (parseComment_total h2).2 hc]

theorem recipeLine_none {c : Char} (hc : isAscii c = true) (h : i.At P t) (hh : (textOf t).head? ≠ some c) :
    recipeLine c i = .ok (.err (.error .code)) := by
  unfold recipeLine grabCommandLine
  rw [(Nom.char_at h hc).2 hh]
  rfl

theorem free_dropWhile {c : Char} (h : Free c t) : (textOf (t.dropWhile lblank)).head? ≠ some c := by
  intro hh
  cases hd : t.dropWhile lblank with
  | nil => rw [hd] at hh; simp at hh
  | cons x r =>
    rw [hd] at hh
    simp only [textOf_cons, List.head?_cons, Option.some.injEq] at hh
    exact h x ((List.dropWhile_sublist lblank).subset (by rw [hd]; simp)) hh

/-- The logical line at the front of the text. -/
theorem makefileLine_logical {line rest : List LChar} (h : i.At P t) (hl : Logical t line rest) (hf : Free '#' t) :
    ∃ r b, makefileLine i .gnu true = .ok (.done r b) ∧ r.At P rest ∧ LineBlock P line b := by
  obtain ⟨cs, lead, final, tail, rest, hcs, h1, h2, h3, h4, h5⟩ := hl
  exact makefileLine_pieces (lead := lead) (final := final) (tail := tail) (rest := rest)
    ⟨h1, h2, fun x hx => by simpa using fun hb => h3 x hx (lblank_iff.mp hb), h4, h5⟩ cs hcs h hf

/-- A line that does not begin with a comment, not part of a rule or a definition, is collapsed and looked at. -/
theorem parseLine_collapsed_of (fs : Fs) (r : Rec) {p : PState} {st : St} (h : i.At P t)
    (hf : parseCommentFollowingWhitespace i = .ok (.err (.error .code)))
    (hd : p.currentDefine = none) (hc : isAscii st.commandChar = true)
    (hr : p.currentRule = none ∨ (textOf t).head? ≠ some st.commandChar) :
    parseLine fs r p st i = parseCollapsed fs r p st i := by
  unfold parseLine
  rw [hf]
  simp only [ok_bind]
  cases hcr : p.currentRule with
  | none => simp [hd]
  | some rule =>
    have hh : (textOf t).head? ≠ some st.commandChar := by
      rcases hr with hr | hr
      · rw [hcr] at hr; cases hr
      · exact hr
    simp only [Option.isSome_some, if_true, recipeLine_none hc h hh, ok_bind]

/-- A line without comments, not part of a rule or a definition, is collapsed and looked at. -/
theorem parseLine_collapsed (fs : Fs) (r : Rec) {p : PState} {st : St} (h : i.At P t) (hf : Free '#' t)
    (hd : p.currentDefine = none) (hc : isAscii st.commandChar = true)
    (hr : p.currentRule = none ∨ (textOf t).head? ≠ some st.commandChar) :
    parseLine fs r p st i = parseCollapsed fs r p st i :=
  parseLine_collapsed_of fs r h (comment_none h (free_dropWhile hf)) hd hc hr

/-- A line that is not empty and not a conditional is a statement, or ignored. -/
theorem parseCollapsed_statement (fs : Fs) {line rest : List LChar} (h : i.At P t)
    (hl : Logical t line rest) (hf : Free '#' t) (hne : line ≠ []) (hc : ¬ CondLike (line.dropWhile lblank)) :
    ∃ j b, j.At P rest ∧ LineBlock P line b ∧ ∀ r p st,
      parseCollapsed fs r p st i = if p.ignoring then .ok (.done j (), p, st) else parseStatement fs r p st j b := by
  obtain ⟨j, b, h1, h2, h3⟩ := makefileLine_logical h hl hf
  refine ⟨j, b, h2, h3, fun r p st => ?_⟩
  have hat := h3.at
  have hlen : b.len ≠ 0 := by
    have := hat.length
    have e : b.span.length = b.len := rfl
    rw [← e, this]
    simpa using hne
  unfold parseCollapsed
  simp only [h1, ok_bind, if_neg hlen, parseConditionalLine_none hat hc]
  rfl

/-- An assignment line, however its end was found. -/
theorem parseLine_assign_of (fs : Fs) (hP : P.content.length ≤ 1) (hm : Block.Mono P) {p : PState} {st : St}
    {line name value : List LChar} {ty : AssignType} {j : Span} {b : Block} (h : i.At P t)
    (hf : parseCommentFollowingWhitespace i = .ok (.err (.error .code)))
    (h1 : makefileLine i .gnu true = .ok (.done j b)) (hb : LineBlock P line b)
    (hd : p.currentDefine = none) (hig : p.ignoring = false) (hch : isAscii st.commandChar = true)
    (hr : p.currentRule = none ∨ (textOf t).head? ≠ some st.commandChar)
    (ha : AssignText line name ty value) (hc : ¬ CondLike (line.dropWhile lblank))
    {nes ves : List Expr} (hn : Reads name (.ok nes)) (hv : Reads value (.ok ves)) (hst : st.WF)
    {nt : List LChar} {ns : List Str} (he : Expands st.env nes nt ns)
    (hs : ty = .simple → value ≠ [] ∧ ∃ vt vs, Expands st.env ves vt vs) :
    ∃ N a st1, (∃ us, st1 = st.interned us) ∧ a.modifiers = Modifiers.none ∧
      st1.names.variableName (trim (textOf nt)) = some a.name ∧ ActionOk st ty ves a.action ∧
      ∀ n, N ≤ n → parseLine fs (recF fs n) p st i = (do
        let (p, st) ← p.closeRule st1
        let (p, st) ← handleVariableAction p st a
        return (.done j (), p, st)) := by
  have hne : line ≠ [] := by
    rintro rfl
    exact ha.dropBlanks.2 rfl
  have hat := hb.at
  obtain ⟨N, post, a, st1, e1, e2, e3, e4, e5⟩ :=
    parseVariableLine_at fs (hb.mono hP hm) hat ha hn hv hst he hs
  refine ⟨N, a, st1, e2, e3, e4, e5, fun n hn => ?_⟩
  rw [parseLine_collapsed_of fs _ h hf hd hch hr]
  have hlen : b.len ≠ 0 := by
    have := hat.length
    have e : b.span.length = b.len := rfl
    rw [← e, this]
    simpa using hne
  unfold parseCollapsed
  simp only [h1, ok_bind, if_neg hlen, parseConditionalLine_none hat hc, hig]
  unfold parseStatement
  simp only [e1 n hn, ok_bind]
  rfl

/-- An assignment line. -/
theorem parseLine_assign (fs : Fs) (hP : P.content.length ≤ 1) (hm : Block.Mono P) {p : PState} {st : St}
    {line rest name value : List LChar} {ty : AssignType} (h : i.At P t) (hl : Logical t line rest) (hf : Free '#' t)
    (hd : p.currentDefine = none) (hig : p.ignoring = false) (hch : isAscii st.commandChar = true)
    (hr : p.currentRule = none ∨ (textOf t).head? ≠ some st.commandChar)
    (ha : AssignText line name ty value) (hc : ¬ CondLike (line.dropWhile lblank))
    {nes ves : List Expr} (hn : Reads name (.ok nes)) (hv : Reads value (.ok ves)) (hst : st.WF)
    {nt : List LChar} {ns : List Str} (he : Expands st.env nes nt ns)
    (hs : ty = .simple → value ≠ [] ∧ ∃ vt vs, Expands st.env ves vt vs) :
    ∃ N j a st1, j.At P rest ∧ (∃ us, st1 = st.interned us) ∧ a.modifiers = Modifiers.none ∧
      st1.names.variableName (trim (textOf nt)) = some a.name ∧ ActionOk st ty ves a.action ∧
      ∀ n, N ≤ n → parseLine fs (recF fs n) p st i = (do
        let (p, st) ← p.closeRule st1
        let (p, st) ← handleVariableAction p st a
        return (.done j (), p, st)) := by
  obtain ⟨j, b, h1, hj, hb⟩ := makefileLine_logical h hl hf
  obtain ⟨N, a, st1, e⟩ := parseLine_assign_of fs hP hm h (comment_none h (free_dropWhile hf)) h1 hb hd hig hch hr ha hc
    hn hv hst he hs
  exact ⟨N, j, a, st1, hj, e⟩

/-- An assignment line while no rule is open. -/
theorem parseLine_assign_plain (fs : Fs) (hP : P.content.length ≤ 1) (hm : Block.Mono P) {p : PState} {st : St}
    {line rest name value : List LChar} {ty : AssignType} (h : i.At P t) (hl : Logical t line rest) (hf : Free '#' t)
    (hd : p.currentDefine = none) (hig : p.ignoring = false) (hch : isAscii st.commandChar = true)
    (hr : p.currentRule = none)
    (ha : AssignText line name ty value) (hc : ¬ CondLike (line.dropWhile lblank))
    {nes ves : List Expr} (hn : Reads name (.ok nes)) (hv : Reads value (.ok ves)) (hst : st.WF)
    {nt : List LChar} {ns : List Str} (he : Expands st.env nes nt ns)
    (hs : ty = .simple → value ≠ [] ∧ ∃ vt vs, Expands st.env ves vt vs) :
    ∃ N j st' pv, j.At P rest ∧ st'.WF ∧ Assigned st st' (trim (textOf nt)) pv ∧ Stores st (trim (textOf nt)) ty ves pv ∧
      ∀ n, N ≤ n → parseLine fs (recF fs n) p st i = .ok (.done j (), p, st') := by
  obtain ⟨N, j, a, st1, hj, ⟨us, rfl⟩, hmod, hname, hact, hrun⟩ :=
    parseLine_assign fs hP hm h hl hf hd hig hch (.inl hr) ha hc hn hv hst he hs
  obtain ⟨st', pv, g1, g2, g3, g4⟩ := handleVariableAction_at (st0 := st) (hst.interned us)
    (hst.env_interned us).symm hmod hname hact p
  have hlook : (st.interned us).lookup = st.lookup := hst.lookup_after rfl (cs := us.map .var) rfl
  refine ⟨N, j, st', pv, hj, g2, ?_, ?_, fun n hn => ?_⟩
  · obtain ⟨k1, k2, k3, k4, ⟨cs, k5⟩, k6⟩ := g3
    refine ⟨k1, by rw [hlook] at k2; exact k2, k3, k4, ⟨us.map .var ++ cs, ?_⟩, k6⟩
    rw [k5]
    simp [St.interned, NameCache.after]
  · cases g4 with
    | recursive => exact .recursive
    | conditional => exact .conditional
    | shell => exact .shell
    | simple e1 e2 => exact .simple (by rw [← hst.env_interned us]; exact e1) e2
    | appendNew e1 => exact .appendNew (by rw [← hlook]; exact e1)
    | append e1 e2 => exact .append (by rw [← hlook]; exact e1) e2
  · rw [hrun n hn]
    have : p.closeRule (st.interned us) = .ok (p, st.interned us) := by
      unfold PState.closeRule; rw [hr]
    rw [this]
    simp only [ok_bind, g1]
    rfl

end Hastur
