import Verif.Proofs.BadLine
import Verif.Proofs.BadRule
/-
Lemmas: assignments of which the value is not well-formed.
-/
namespace Hastur

open Res Span

variable {P : Block} {t : List LChar} {i : Span}

/-! ### Cutting a text at a semicolon -/

theorem map_error_outcome {o : Outcome} {f : List Expr → List Expr} {k : ParseErrorKind}
    (h : (Except.error k : Outcome) = o.map f) : o = .error k := by
  cases o with
  | ok _ => cases h
  | error _ => cases h; rfl

/-- A malformed text is malformed in front of any semicolon or behind it. -/
theorem reads_split {a b : List LChar} {l : Location} {k : ParseErrorKind} (h : Reads (a ++ (';', l) :: b) (.error k)) :
    (∃ k', Reads a (.error k')) ∨ Reads b (.error k) := by
  induction hn : a.length using Nat.strongRecOn generalizing a with
  | ind n ih =>
    subst hn
    have bracket : ∀ {l0 : Location} {opn cls : Char} {t : List LChar}, t.length + 1 < a.length →
        ReadsRef l0 (closing opn cls 0 (t ++ (';', l) :: b)) (.error k) →
        (∃ k', ReadsRef l0 (closing opn cls 0 t) (.error k')) ∨ Reads b (.error k) := by
      intro l0 opn cls t ht h
      cases hc : closing opn cls 0 t with
      | none => exact .inl ⟨_, .unclosed⟩
      | some p =>
        obtain ⟨name, rest⟩ := p
        rw [closing_append hc] at h
        obtain ⟨lc, hlc⟩ := closing_some hc
        generalize ho : (Except.error k : Outcome) = o at h
        cases h with
        | @ref _ _ _ _ o h1 h2 h3 =>
          have := map_error_outcome ho
          subst this
          rcases ih rest.length (by rw [hlc] at ht; simp at ht; omega) h3 rfl with ⟨k', h4⟩ | h4
          · exact .inl ⟨k', .ref h1 h2 (o := .error k') h4⟩
          · exact .inr h4
        | nameError h1 h2 =>
          cases ho
          exact .inl ⟨_, .nameError h1 h2⟩
        | call h1 h2 =>
          subst ho
          exact .inl ⟨_, .call h1 h2⟩
    generalize ht : a ++ (';', l) :: b = t at h
    generalize ho : (Except.error k : Outcome) = o at h
    cases h with
    | nil => cases ho
    | last => cases ho
    | @char x t o hx h =>
      have := map_error_outcome ho
      subst this
      cases a with
      | nil =>
        cases ht
        exact .inr h
      | cons y a =>
        cases ht
        rcases ih a.length (by simp) h rfl with ⟨k', h4⟩ | h4
        · exact .inl ⟨k', .char hx (o := .error k') h4⟩
        · exact .inr h4
    | @dollar l1 l2 t o h =>
      have := map_error_outcome ho
      subst this
      rcases a with _ | ⟨y, _ | ⟨z, a⟩⟩
      · cases ht
      · cases ht
      · cases ht
        rcases ih a.length (by simp; omega) h rfl with ⟨k', h4⟩ | h4
        · exact .inl ⟨k', .dollar (o := .error k') h4⟩
        · exact .inr h4
    | @single l1 x t o h1 h2 h3 h =>
      have := map_error_outcome ho
      subst this
      rcases a with _ | ⟨y, _ | ⟨z, a⟩⟩
      · cases ht
      · cases ht
        exact .inr h
      · cases ht
        rcases ih a.length (by simp; omega) h rfl with ⟨k', h4⟩ | h4
        · exact .inl ⟨k', .single h1 h2 h3 (o := .error k') h4⟩
        · exact .inr h4
    | @paren l1 l2 t o h =>
      subst ho
      rcases a with _ | ⟨y, _ | ⟨z, a⟩⟩
      · cases ht
      · cases ht
      · cases ht
        rcases bracket (t := a) (by simp) h with ⟨k', h4⟩ | h4
        · exact .inl ⟨k', .paren h4⟩
        · exact .inr h4
    | @brace l1 l2 t o h =>
      subst ho
      rcases a with _ | ⟨y, _ | ⟨z, a⟩⟩
      · cases ht
      · cases ht
      · cases ht
        rcases bracket (t := a) (by simp) h with ⟨k', h4⟩ | h4
        · exact .inl ⟨k', .brace h4⟩
        · exact .inr h4

/-! ### Operators among the words -/

/-- An operator by itself is a word. -/
theorem nextMword_op {gap op u : List LChar} {ty : AssignType} (h : i.At P (gap ++ (op ++ u))) (hg : Blanks gap)
    (ho : OpText ty (textOf op)) :
    ∃ r m, nextMword i = .ok (.done r (m, .varAssign)) ∧ r.At P u ∧ m.At P op := by
  obtain ⟨r, q, e1, e2, _⟩ := whitespace_at h
  obtain ⟨c, s, hcs, hc⟩ : ∃ c s, textOf op = c :: s ∧ ¬ (c = ' ' ∨ c = '\t') := by
    generalize textOf op = s at ho
    cases ho <;> exact ⟨_, _, rfl, by decide⟩
  have hsol : (gap ++ (op ++ u)).dropWhile lblank = op ++ u := by
    rw [dropWhile_blanks hg, dropWhile_solid]
    intro y hy
    cases op with
    | nil => cases hcs
    | cons z op =>
      simp only [List.cons_append, List.head?_cons, Option.some.injEq] at hy
      subst hy
      rw [textOf_cons] at hcs
      rw [← Bool.not_eq_true]
      intro hb
      rw [lblank_iff, (List.cons.inj hcs).1] at hb
      exact hc hb
  rw [hsol] at e2
  have miss : ∀ w s, AsciiS w → textOf op = s → ¬ w <+: s ++ textOf u → Nom.tag w r = .ok (.err (.error .code)) := by
    intro w s h1 h2 h3
    refine tag_miss e2 h1 ?_
    rw [textOf_append, h2]
    exact h3
  have hit : ∀ s, AsciiS s → textOf op = s → ∃ r' m, Nom.tag s r = .ok (.done r' m) ∧ r'.At P u ∧ m.At P op := by
    intro s h1 h2
    obtain ⟨r', m, f1, f2, f3⟩ := (Nom.tag_at e2 h1).1 (by rw [textOf_append, h2]; exact List.prefix_append _ _)
    have hl : s.length = op.length := by rw [← h2, textOf_length]
    rw [hl] at f2 f3
    rw [List.drop_left] at f2
    rw [List.take_left] at f3
    exact ⟨r', m, f1, f2, f3⟩
  generalize hs : textOf op = s0 at ho
  cases ho
  · obtain ⟨r', m, f1, f2, f3⟩ := hit "=".toList (by unfold AsciiS; decide) hs
    have m0 := miss ";".toList _ (by unfold AsciiS; decide) hs (by simp)
    refine ⟨r', m, ?_, f2, f3⟩
    unfold nextMword
    simp only [e1, done_andThen, m0, f1, err_mapP, error_orElse, done_mapP, done_orElse]
  · obtain ⟨r', m, f1, f2, f3⟩ := hit ":=".toList (by unfold AsciiS; decide) hs
    have m0 := miss ";".toList _ (by unfold AsciiS; decide) hs (by simp)
    have m1 := miss "=".toList _ (by unfold AsciiS; decide) hs (by simp)
    refine ⟨r', m, ?_, f2, f3⟩
    unfold nextMword
    simp only [e1, done_andThen, m0, m1, f1, err_mapP, error_orElse, done_mapP, done_orElse]
  · obtain ⟨r', m, f1, f2, f3⟩ := hit "::=".toList (by unfold AsciiS; decide) hs
    have m0 := miss ";".toList _ (by unfold AsciiS; decide) hs (by simp)
    have m1 := miss "=".toList _ (by unfold AsciiS; decide) hs (by simp)
    have m2 := miss ":=".toList _ (by unfold AsciiS; decide) hs (by simp)
    refine ⟨r', m, ?_, f2, f3⟩
    unfold nextMword
    simp only [e1, done_andThen, m0, m1, m2, f1, err_mapP, error_orElse, done_mapP, done_orElse]
  · obtain ⟨r', m, f1, f2, f3⟩ := hit "?=".toList (by unfold AsciiS; decide) hs
    have m0 := miss ";".toList _ (by unfold AsciiS; decide) hs (by simp)
    have m1 := miss "=".toList _ (by unfold AsciiS; decide) hs (by simp)
    have m2 := miss ":=".toList _ (by unfold AsciiS; decide) hs (by simp)
    have m3 := miss "::=".toList _ (by unfold AsciiS; decide) hs (by simp)
    have m4 := miss "::".toList _ (by unfold AsciiS; decide) hs (by simp)
    have m5 := miss ":".toList _ (by unfold AsciiS; decide) hs (by simp)
    have m6 := miss "+=".toList _ (by unfold AsciiS; decide) hs (by simp)
    refine ⟨r', m, ?_, f2, f3⟩
    unfold nextMword
    simp only [e1, done_andThen, m0, m1, m2, m3, m4, m5, m6, f1, err_mapP, error_orElse, done_mapP, done_orElse]
  · obtain ⟨r', m, f1, f2, f3⟩ := hit "!=".toList (by unfold AsciiS; decide) hs
    have m0 := miss ";".toList _ (by unfold AsciiS; decide) hs (by simp)
    have m1 := miss "=".toList _ (by unfold AsciiS; decide) hs (by simp)
    have m2 := miss ":=".toList _ (by unfold AsciiS; decide) hs (by simp)
    have m3 := miss "::=".toList _ (by unfold AsciiS; decide) hs (by simp)
    have m4 := miss "::".toList _ (by unfold AsciiS; decide) hs (by simp)
    have m5 := miss ":".toList _ (by unfold AsciiS; decide) hs (by simp)
    have m6 := miss "+=".toList _ (by unfold AsciiS; decide) hs (by simp)
    have m7 := miss "?=".toList _ (by unfold AsciiS; decide) hs (by simp)
    refine ⟨r', m, ?_, f2, f3⟩
    unfold nextMword
    simp only [e1, done_andThen, m0, m1, m2, m3, m4, m5, m6, m7, f1, err_mapP, error_orElse, done_mapP, done_orElse]
  · obtain ⟨r', m, f1, f2, f3⟩ := hit "+=".toList (by unfold AsciiS; decide) hs
    have m0 := miss ";".toList _ (by unfold AsciiS; decide) hs (by simp)
    have m1 := miss "=".toList _ (by unfold AsciiS; decide) hs (by simp)
    have m2 := miss ":=".toList _ (by unfold AsciiS; decide) hs (by simp)
    have m3 := miss "::=".toList _ (by unfold AsciiS; decide) hs (by simp)
    have m4 := miss "::".toList _ (by unfold AsciiS; decide) hs (by simp)
    have m5 := miss ":".toList _ (by unfold AsciiS; decide) hs (by simp)
    refine ⟨r', m, ?_, f2, f3⟩
    unfold nextMword
    simp only [e1, done_andThen, m0, m1, m2, m3, m4, m5, f1, err_mapP, error_orElse, done_mapP, done_orElse]

/-- The word loop gets past the name in front of an operator. -/
theorem wordLoop_name (fs : Fs) (hm : Block.Mono P) {w gap op u : List LChar} {ty : AssignType} (hw : ∀ x ∈ w, WordChar x.1)
    (hne : w ≠ []) (hg : Blanks gap) (hgne : gap ≠ []) (ho : OpText ty (textOf op)) (postSemi : Option Block) (st : St)
    (h : i.At P (w ++ (gap ++ (op ++ u)))) :
    ∃ r m reason r2 m2, nextMword i = .ok (.done r (m, reason)) ∧ (reason = .static ∨ reason = .variable) ∧ r2.At P u ∧
      m2.At P op ∧ ∀ n, 2 ≤ n → ∃ buf, Buf (spaced [] w) buf ∧ ∀ k,
        wordLoop (recF fs n) (k + 1) r m reason Block.empty postSemi st =
          wordLoop (recF fs n) k r2 m2 .varAssign buf postSemi st := by
  obtain ⟨x, gap1, rfl⟩ := List.exists_cons_of_ne_nil hgne
  have hblank := hg x List.mem_cons_self
  have hstop : WordStop (textOf (x :: gap1 ++ (op ++ u))) := by
    rw [List.cons_append, textOf_cons]
    exact .blank hblank
  have hx : WordStop.extra (textOf (x :: gap1 ++ (op ++ u))) = 0 := by
    rw [List.cons_append, textOf_cons]
    simp only [WordStop.extra]
    rw [if_neg]
    rcases hblank with h | h <;> rw [h] <;> decide
  obtain ⟨r, m, reason, e1, e2, e3, e4⟩ := nextMword_segment (gap := []) h (by intro x hx; cases hx) (segment_word hw) hne hstop
  rw [hx, List.drop_zero] at e2
  rw [hx, List.take_zero, List.append_nil] at e3
  have hdollar : Free '$' w := fun x hx he => (hw x hx).2 (by rw [he]; simp)
  obtain ⟨b, b1, _, b2⟩ := expandSegment_text fs (e3.whole hm) e3 hdollar st
  obtain ⟨r2, m2, c1, c2, c3⟩ := nextMword_op e2 hg ho
  refine ⟨r, m, reason, r2, m2, e1, e4, c2, c3, fun n hn => ?_⟩
  exact wordLoop_plain (b2 n hn) b1 (fun x hx => .inl (hw x hx)) hne c1 (by decide) Buf.empty

theorem op_free {op : List LChar} {ty : AssignType} (ho : OpText ty (textOf op)) :
    ∀ c, c ∉ ['=', ':', '?', '!', '+'] → Free c op := by
  intro c hc x hx he
  have hmem : c ∈ textOf op := mem_textOf.mpr ⟨x, hx, he⟩
  generalize textOf op = s at ho hmem
  cases ho <;> simp at hc hmem <;> simp_all

/-- The word loop on `name op value`, where the operator has no colon. -/
theorem wordLoop_opWords (fs : Fs) (hm : Block.Mono P) {w gap op gap' ts : List LChar} {ty : AssignType}
    {k : ParseErrorKind} {st : St} (hw : ∀ x ∈ w, WordChar x.1) (hne : w ≠ []) (hg : Blanks gap) (hgne : gap ≠ [])
    (ho : OpText ty (textOf op)) (hty : ty ≠ .simple) (hg' : Blanks gap') (hT : BadTargets st.env ts k)
    (hs : ∀ x ∈ ts, x.1 ∉ [';', '#', '\\']) (postSemi : Option Block) (hst : st.WF)
    (h : i.At P (w ++ (gap ++ (op ++ (gap' ++ ts))))) :
    ∃ N r m reason st', nextMword i = .ok (.done r (m, reason)) ∧ (reason = .static ∨ reason = .variable) ∧
      ∀ n k', N ≤ n → ts.length + 2 < k' →
        wordLoop (recF fs n) k' r m reason Block.empty postSemi st = .ok (.err (.failure (.custom k)), st') := by
  obtain ⟨r, m, reason, r2, m2, e1, e2, e3, e4, e5⟩ := wordLoop_name fs hm hw hne hg hgne ho postSemi st h
  have hcol : Free ':' op := by
    intro x hx he
    have hmem : ':' ∈ textOf op := mem_textOf.mpr ⟨x, hx, he⟩
    generalize textOf op = s at ho hmem
    cases ho <;> first | exact absurd rfl hty | simp at hmem
  have hopne : op ≠ [] := by
    rintro rfl
    generalize hs : textOf ([] : List LChar) = s at ho
    cases ho <;> cases hs
  have hf := op_free ho
  obtain ⟨b, b1, _, b2⟩ := expandSegment_text fs (e4.whole hm) e4 (hf _ (by decide)) st
  obtain ⟨M, r3, m3, reason3, st', d1, d2, d3⟩ := wordLoop_badTargets fs hm hT postSemi hs hst rfl hg' e3
  refine ⟨max M 2, r, m, reason, st', e1, e2, fun n k' hn hk => ?_⟩
  obtain ⟨k', rfl⟩ : ∃ k0, k' = k0 + 1 + 1 := ⟨k' - 2, by omega⟩
  obtain ⟨buf1, g1, g2⟩ := e5 n (by omega)
  obtain ⟨buf2, g3, g4⟩ := wordLoop_free (mwt := .varAssign) (postSemi := postSemi) (b2 n (by omega)) b1
    (hf _ (by decide)) hcol (hf _ (by decide)) hopne d1 (by rcases d2 with h | h <;> rw [h] <;> decide) g1
  rw [g2, g4, d3 n k' buf2 _ (by omega) (by omega) g3]

/-- The word loop on `name := value`: the colon of the operator is taken for that of a rule. -/
theorem wordLoop_opColon (fs : Fs) (hm : Block.Mono P) {w gap op u : List LChar} {st : St} (hw : ∀ x ∈ w, WordChar x.1)
    (hne : w ≠ []) (hg : Blanks gap) (hgne : gap ≠ []) (ho : OpText .simple (textOf op)) (postSemi : Option Block)
    (h : i.At P (w ++ (gap ++ (op ++ u)))) :
    ∃ r m reason r2, nextMword i = .ok (.done r (m, reason)) ∧ (reason = .static ∨ reason = .variable) ∧ r2.At P u ∧
      ∃ at' cs l, ∃ double : Bool, at' = cs ++ [('=', l)] ∧ textOf cs = (if double then [':'] else []) ∧
      ∀ n k, 2 ≤ n → 2 < k → ∃ buf after, Buf at' after ∧ Block.Mono after ∧
        wordLoop (recF fs n) k r m reason Block.empty postSemi st =
          .ok (.finished buf (some after) r2 postSemi .varAssign, st) := by
  obtain ⟨r, m, reason, r2, m2, e1, e2, e3, e4, e5⟩ := wordLoop_name fs hm hw hne hg hgne ho postSemi st h
  have hf := op_free ho
  obtain ⟨b, b1, bm, b2⟩ := expandSegment_text fs (e4.whole hm) e4 (hf _ (by decide)) st
  obtain ⟨lc, cs, l, double, rfl, hcs⟩ : ∃ lc cs l, ∃ double : Bool, op = (':', lc) :: (cs ++ [('=', l)]) ∧
      textOf cs = (if double then [':'] else []) := by
    generalize hs : textOf op = s at ho
    cases ho
    · rcases op with _ | ⟨⟨a, la⟩, _ | ⟨⟨c, lb⟩, _ | ⟨d, op⟩⟩⟩ <;> simp [textOf] at hs
      obtain ⟨rfl, rfl⟩ := hs
      exact ⟨la, [], lb, false, rfl, rfl⟩
    · rcases op with _ | ⟨⟨a, la⟩, _ | ⟨⟨c, lb⟩, _ | ⟨⟨d, ld⟩, _ | ⟨e, op⟩⟩⟩⟩ <;> simp [textOf] at hs
      obtain ⟨rfl, rfl, rfl⟩ := hs
      exact ⟨la, [(':', lb)], ld, true, rfl, rfl⟩
  refine ⟨r, m, reason, r2, e1, e2, e3, _, cs, l, double, rfl, hcs, fun n k hn hk => ?_⟩
  obtain ⟨k, rfl⟩ : ∃ k0, k = k0 + 1 + 1 := ⟨k - 2, by omega⟩
  obtain ⟨buf1, g1, g2⟩ := e5 n (by omega)
  obtain ⟨pre, post, p1, p2, p3⟩ := findColon_some (u := []) b1 (by intro x hx; cases hx) (by intro x hx; cases hx) (by
    rw [textOf_append, hcs]
    cases double <;> simp [textOf])
  obtain ⟨after, a1, a2⟩ := p3.part
  obtain ⟨buf', q1, _⟩ := pushWord_at g1 p2
  refine ⟨buf', after, a2.buf, a2.mono bm, ?_⟩
  have hlen : ¬ b.len = 0 := by rw [b1.len]; simp
  rw [g2, wordLoop]
  simp only [b2 n hn, ok_bind, semicolonInWord_none (recF fs n) b1 (hf _ (by decide)) (hf _ (by decide)), if_neg hlen, p1, a1, q1]
  rfl

/-- The text in front of the first semicolon. -/
theorem semi_split (t : List LChar) : ∃ a tail, t = a ++ tail ∧ (∀ x ∈ a, x.1 ≠ ';') ∧ Tail tail := by
  induction t with
  | nil => exact ⟨[], [], rfl, by simp, .nil⟩
  | cons x t ih =>
    by_cases hx : x.1 = ';'
    · obtain ⟨c, l⟩ := x
      cases hx
      exact ⟨[], _, rfl, by simp, .semicolon⟩
    · obtain ⟨a, tail, rfl, h1, h2⟩ := ih
      exact ⟨x :: a, tail, rfl, by simpa [hx] using h1, h2⟩

/-! ### The line -/

/-- The characters of a name, of blanks and of operators. -/
theorem head_chars {w gap op gap' : List LChar} {ty : AssignType} (hw : ∀ x ∈ w, WordChar x.1) (hg : Blanks gap)
    (ho : OpText ty (textOf op)) (hg' : Blanks gap') {v : List LChar} (hv : ∀ x ∈ v, x.1 ∉ [';', '#', '\\']) :
    ∀ x ∈ w ++ (gap ++ (op ++ (gap' ++ v))), x.1 ∉ [';', '#', '\\'] := by
  have hsp : ∀ {g : List LChar}, Blanks g → ∀ x ∈ g, x.1 ∉ [';', '#', '\\'] := fun hg x hx => by
    rcases hg x hx with e | e <;> rw [e] <;> decide
  intro x hx
  simp only [List.mem_append] at hx
  rcases hx with hx | hx | hx | hx | hx
  · have := (hw x hx).2
    simp only [List.mem_cons, List.not_mem_nil, or_false, not_or] at this ⊢
    exact ⟨this.2.2.2.1, this.2.2.2.2.1, this.2.2.2.2.2.2⟩
  · exact hsp hg x hx
  · have hf := op_free ho
    intro hm
    simp only [List.mem_cons, List.not_mem_nil, or_false] at hm
    rcases hm with e | e | e
    · exact hf _ (by decide) x hx e
    · exact hf _ (by decide) x hx e
    · exact hf _ (by decide) x hx e
  · exact hsp hg' x hx
  · exact hv x hx

theorem parseTargetLine_badAssign (fs : Fs) {L : Block} {w gap op gap' value : List LChar} {ty : AssignType} {st : St}
    (hL : L.content.length ≤ 1) (hm : Block.Mono L) (h : L.span.At L (w ++ (gap ++ (op ++ (gap' ++ value)))))
    (hnl : Free '\n' (w ++ (gap ++ (op ++ (gap' ++ value)))))
    (hcom : Free '#' (w ++ (gap ++ (op ++ (gap' ++ value)))))
    (hev : trailingSlashes (textOf (w ++ (gap ++ (op ++ (gap' ++ value))))) % 2 = 0) (hst : st.WF)
    (hw : ∀ x ∈ w, WordChar x.1) (hne : w ≠ []) (hg : Blanks gap) (hgne : gap ≠ []) (ho : OpText ty (textOf op))
    (hg' : Blanks gap') (hb : BadValue st.env ty value) :
    ∃ N, ∀ n, N ≤ n → ∀ o st', parseTargetLine (recF fs n) L.span st = .ok (o, st') → Refused o := by
  obtain ⟨rest, L2, m1, _, m3, _⟩ := makefileLine_one (strip := false) h (grabSpec_eof hcom hnl) hev
  have hm2 := m3.mono hL hm
  have hat2 := m3.at
  cases hb with
  | @words _ ts tail k hty hT hs ht =>
    obtain ⟨b, postSemi, command, c1, e2, c2, hsemi⟩ := preSemi_split hm2 (pre := w ++ (gap ++ (op ++ (gap' ++ ts))))
      (tail := tail) (by simpa using hat2) (head_chars hw hg ho hg' hs) ht
    have hb := e2.buf
    obtain ⟨N, r, m, reason, st1, w1, w2, w3⟩ := wordLoop_opWords fs (e2.mono hm2) hw hne hg hgne ho hty hg' hT hs postSemi
      hst hb.at
    refine ⟨N, fun n hn o st' ho' => ?_⟩
    have hloop := w3 n (b.len + 2) hn (by
      have := List.length_pos_iff.mpr hne
      rw [hb.len]; simp; omega)
    unfold parseTargetLine at ho'
    rw [m1] at ho'
    simp only [ok_bind] at ho'
    obtain ⟨x5, f5, ho'⟩ := Res.bind_eq_ok.mp ho'
    cases f5.symm.trans hsemi
    dsimp only at ho'
    rw [w1] at ho'
    simp only [ok_bind] at ho'
    rcases w2 with rfl | rfl
    · simp only [hloop, ok_bind] at ho'
      cases ho'
      exact .err
    · simp only [hloop, ok_bind] at ho'
      cases ho'
      exact .err
  | @simple _ k hs hr =>
    obtain ⟨a, tail, rfl, h1, h2⟩ := semi_split value
    have ha : ∀ x ∈ a, x.1 ∉ [';', '#', '\\'] := by
      intro x hx
      have h3 := h1 x hx
      have h4 := hs x (List.mem_append_left _ hx)
      simp only [List.mem_cons, List.not_mem_nil, or_false, not_or] at h4 ⊢
      exact ⟨h3, h4⟩
    obtain ⟨b, postSemi, command, c1, e2, c2, hsemi⟩ := preSemi_split hm2 (pre := w ++ (gap ++ (op ++ (gap' ++ a))))
      (tail := tail) (by simpa using hat2) (head_chars hw hg ho hg' ha) h2
    have hb := e2.buf
    have hbm := e2.mono hm2
    obtain ⟨r, m, reason, r2, w1, w2, w3, at', cs, l, double, rfl, hcs, w4⟩ :=
      wordLoop_opColon fs hbm hw hne hg hgne ho postSemi (st := st) hb.at
    refine ⟨2, fun n hn o st' ho' => ?_⟩
    obtain ⟨buf, after, g1, g2, hloop⟩ := w4 n (b.len + 2) hn (by
      have := List.length_pos_iff.mpr hne
      rw [hb.len]; simp; omega)
    unfold parseTargetLine at ho'
    rw [m1] at ho'
    simp only [ok_bind] at ho'
    obtain ⟨x5, f5, ho'⟩ := Res.bind_eq_ok.mp ho'
    cases f5.symm.trans hsemi
    dsimp only at ho'
    rw [w1] at ho'
    simp only [ok_bind] at ho'
    have fin : finishRule (recF fs n) rest buf after r2 postSemi st = .ok (o, st') := by
      rcases w2 with rfl | rfl <;>
        simpa only [hloop, ok_bind, if_neg (show ¬ MWordEnd.varAssign = MWordEnd.eol by decide), runwrap] using ho'
    have front : ∀ {k'}, Reads a (.error k') → Reads (('=', l) :: (gap' ++ a)) (.error k') := by
      intro k' hk
      refine .char (by simp) (o := .error _) ?_
      have : ∀ {g : List LChar}, Blanks g → Reads (g ++ a) (.error k') := by
        intro g hg
        induction g with
        | nil => exact hk
        | cons x g ih =>
          refine .char ?_ (o := .error _) (ih fun y hy => hg y (List.mem_cons_of_mem _ hy))
          rcases hg x List.mem_cons_self with e | e <;> rw [e] <;> decide
      exact this hg'
    have close : ∀ k', (Reads (('=', l) :: (gap' ++ a)) (.error k') ∨ ∃ cmd, command = some cmd ∧ Reads cmd (.error k')) →
        Refused o := fun k' hk =>
      finishRule_bad (k := k') _ hbm hb.solid g1 (fun _ => g2) w3 (cs := cs) (ds := ('=', l) :: (gap' ++ a)) (by simp)
        hcs (by simp) c1 hk fin
    cases h2 with
    | nil =>
      rw [List.append_nil] at hr
      exact close k (.inl (front hr))
    | @semicolon l' cmd =>
      rcases reads_split hr with ⟨k', hk⟩ | hk
      · exact close k' (.inl (front hk))
      · exact close k (.inr ⟨cmd, c2 l' cmd rfl, hk⟩)

theorem parseLine_badAssign (fs : Fs) {line rest name value : List LChar} {ty : AssignType} {p : PState} {st : St}
    {k : ParseErrorKind} (h : AtLine P i t line rest p st)
    (hr : p.currentRule = none ∨ (textOf t).head? ≠ some st.commandChar)
    (ha : p.ignoring = false) (hl : Physical t line rest) (hc : (textOf line).head? ≠ some st.commandChar)
    (h5 : ¬ CondLike line) (h7 : ¬ DirectiveLike line) (hv : ∀ w ∈ varWords, ¬ w <+: (textOf line).map lower)
    (hassign : AssignText line name ty value) (hne : name ≠ []) (hw : ∀ x ∈ name, WordChar x.1)
    (hgap : (textOf (line.drop name.length)).head? ∈ [some ' ', some '\t']) (hrd : Reads value (.error k))
    (hb : BadValue st.env ty value) : Rejects fs i p st := by
  have hname : Reads name (.ok (Expr.text name)) := reads_names fun x hx => .inl (hw x hx)
  have hdrop := hl.solid
  by_cases hk : k = .unterminatedVariable
  · subst hk
    intro n j p' st' hp
    rw [parseLine_unclosed fs h.found ha hr hassign (by rw [hdrop]; exact h5) (.inr ⟨_, hname, hrd⟩)] at hp
    cases hp
  intro n j p' st' hp0
  obtain ⟨j1, b, e1, e2, e3, e4⟩ := makefileLine_physical h.at_ hl h.comment
  have hat := e3.at
  have hbm := e3.mono h.pieces h.mono
  obtain ⟨hnl, hsl, hcm⟩ := hl.free h.comment
  have hassign' := hassign
  obtain ⟨name, gap, op, gap', value, ty, _, hg, ho, hg', _⟩ := hassign
  rw [List.drop_left] at hgap
  have hgne : gap ≠ [] := by
    rintro rfl
    rw [List.nil_append, textOf_append] at hgap
    generalize textOf op = s at ho hgap
    cases ho <;> simp at hgap
  have hlen : b.len ≠ 0 := by
    have := hat.length
    have e : b.span.length = b.len := rfl
    rw [← e, this]
    simp [hne]
  obtain ⟨N, hN⟩ := parseTargetLine_badAssign fs e4 hbm hat hnl hcm hsl h.wf hw hne hg hgne ho hg' hb
  have hp := (parseLine_le (recF_le fs (Nat.le_max_left n N)) fs p st i).ok hp0
  rw [parseLine_collapsed fs _ h.at_ h.comment h.define h.command hr] at hp
  obtain ⟨e, hv⟩ := parseVariableLine_bad (recF fs (max n N)) st hbm hat hdrop hassign' hk hv (.inr ⟨_, hname, hrd⟩)
  unfold parseCollapsed at hp
  simp only [e1, ok_bind, if_neg hlen, parseConditionalLine_none hat (by rw [hdrop]; exact h5),
    if_neg (show ¬ p.ignoring = true by rw [ha]; decide)] at hp
  unfold parseStatement at hp
  simp only [hv, ok_bind, parseDirectiveLine_none hat h7, Nom.firstChar_at hat, if_neg hc] at hp
  obtain ⟨⟨o, st1⟩, k1, k2⟩ := Res.bind_eq_ok.mp hp
  cases hN _ (Nat.le_max_right n N) _ _ k1 with
  | err => cases k2
  | assign =>
    obtain ⟨⟨p1, st2⟩, _, k3⟩ := Res.bind_eq_ok.mp k2
    cases k3

end Hastur
