import Verif.Proofs.Malformed
import Verif.Proofs.RuleDemo
import Verif.Proofs.Program

/-!
Tests without two arguments.
-/

namespace Hastur
open Res Span
variable {P : Block} {t : List LChar} {i : Span}

theorem ifeqScan_free {c : Char} {a : List LChar} (h : Free c a) : ∀ (n : Nat) (count : Int),
    ifeqScan c count (Span.indexed n (textOf a)) = none := by
  induction a with
  | nil => intros; rfl
  | cons x a ih =>
    intro n count
    have hx : x.1 ≠ c := h x List.mem_cons_self
    have ih := ih fun y hy => h y (List.mem_cons_of_mem _ hy)
    simp only [textOf, List.map_cons, Span.indexed_cons, ifeqScan, if_neg (show ¬ (x.1 = c ∧ count - 1 < 0) from fun h => hx h.1),
      if_neg (show ¬ (x.1 = c ∧ count ≤ 0) from fun h => hx h.1)]
    simp only [textOf] at ih
    split
    · exact ih _ _
    · split <;> exact ih _ _

theorem takeTill_open {a : List LChar} {c : Char} (hi : i.At P a) (hc : c = ',' ∨ c = ')' ∨ c = '"' ∨ c = '\'') (hf : Free c a) :
    ∃ k, takeTillTerminator c i = .ok (.err (.error k)) := by
  by_cases hn : c = ',' ∨ c = ')'
  · refine ⟨.custom .badIfEqSeparator, ?_⟩
    unfold takeTillTerminator
    rw [if_pos hn, hi.chars]
    simp only [Span.withIndices_eq 0 hi.ascii, ifeqScan_free hf]
    rfl
  · have hc' : isAscii c = true := by rcases hc with rfl | rfl | rfl | rfl <;> decide
    obtain ⟨s, q, h1, h2, h3⟩ := Nom.takeTill_at hi (· == c)
    have hp : ∀ x ∈ a, (!(x.1 == c)) = true := fun x hx => by simpa using hf x hx
    rw [List.dropWhile_eq_nil_iff.mpr hp] at h2
    have h4 := (Nom.char_at h2 (c := c) hc').2 (by simp [textOf])
    refine ⟨.code, ?_⟩
    unfold takeTillTerminator
    rw [if_neg hn, h1, done_andThen, h4, err_andThen]

private theorem quote_step {s : Span} {c : Char} {l : Location} {u : List LChar} (hc : c = '"' ∨ c = '\'')
    (hs : s.At P ((c, l) :: u)) :
    ∃ r, orElse ((Nom.char '"' s).mapP fun _ => '"') ((Nom.char '\'' s).mapP fun _ => '\'') = .ok (.done r c) ∧ r.At P u := by
  rcases hc with rfl | rfl
  · obtain ⟨r, f1, f2⟩ := (Nom.char_at hs (by decide)).1 _ _ rfl
    exact ⟨r, by simp only [f1, done_mapP, done_orElse], f2⟩
  · obtain ⟨r, f1, f2⟩ := (Nom.char_at hs (by decide)).1 _ _ rfl
    refine ⟨r, ?_, f2⟩
    rw [(Nom.char_at hs (c := '"') (by decide)).2 (by simp [textOf])]
    simp only [f1, done_mapP, err_mapP, error_orElse]

theorem parseIfeq_unclosed (hm : Block.Mono P) {args : List LChar} (h : i.At P args) (hu : Unclosed args) :
    ∃ k, parseIfeq i = .ok (.err (.error k)) := by
  cases hu with
  | nothing hc => exact ⟨_, parseIfeq_none h hc⟩
  | @noComma l a hf =>
    obtain ⟨i1, e1, g1⟩ := (Nom.char_at h (by decide)).1 _ _ rfl
    obtain ⟨k, e2⟩ := takeTill_open g1 (.inl rfl) hf
    refine ⟨k, ?_⟩
    unfold parseIfeq
    simp only [e1, done_mapP, done_orElse, done_andThen, e2, err_andThen]
  | @noParen l l' a b as h1 ha hf =>
    obtain ⟨i1, e1, g1⟩ := (Nom.char_at h (by decide)).1 _ _ rfl
    obtain ⟨i2, q1, e2, g2, k2⟩ := takeTill_term g1 (.inl rfl) (by
      rw [textOf_append, indexed_append, ifeqScan_noTopComma h1]
      simp [textOf, ifeqScan])
    obtain ⟨s1, x, e3, _, k3, w3⟩ := parseAst_at hm k2 ha
    obtain ⟨i3, q2, e4, g4, _⟩ := whitespace_at g2
    obtain ⟨k, e5⟩ := takeTill_open g4 (.inr (.inl rfl)) (fun y hy => hf y (List.dropWhile_subset _ hy))
    refine ⟨k, ?_⟩
    unfold parseIfeq
    simp only [e1, done_mapP, done_orElse, done_andThen, e2, e3, e4, if_true, done_def, e5, err_andThen]
  | @noQuote l q a h1 hf =>
    have e0 := (Nom.char_at h (c := '(') (by decide)).2 (by rcases h1 with rfl | rfl <;> simp [textOf])
    obtain ⟨i1, e1, g1⟩ := quote_step h1 h
    obtain ⟨k, e2⟩ := takeTill_open g1 (.inr (.inr h1)) hf
    refine ⟨k, ?_⟩
    unfold parseIfeq
    rw [e0]
    simp only [err_mapP, error_orElse, e1, done_andThen, e2, err_andThen]
  | @noSecond l l' q a gap u as h1 hf ha hg hu =>
    have hq : ¬ q = ',' := by rcases h1 with rfl | rfl <;> decide
    have e0 := (Nom.char_at h (c := '(') (by decide)).2 (by rcases h1 with rfl | rfl <;> simp [textOf])
    obtain ⟨i1, e1, g1⟩ := quote_step h1 h
    obtain ⟨i2, q1, e2, g2, k2⟩ := takeTill_quote g1 h1 hf
    obtain ⟨s1, x, e3, _, k3, w3⟩ := parseAst_at hm k2 ha
    obtain ⟨i3, q2, e4, g4, _⟩ := whitespace_at g2
    have hd : (gap ++ u).dropWhile lblank = u := by
      rw [dropWhile_blanks hg]
      refine dropWhile_solid fun y hy => ?_
      have := hu y hy
      simp only [List.mem_cons, List.not_mem_nil, or_false, not_or] at this
      simpa using fun hb => (lblank_iff.mp hb).elim this.1 this.2.1
    rw [hd] at g4
    have hh : (textOf u).head? ≠ some '"' ∧ (textOf u).head? ≠ some '\'' := by
      cases u with
      | nil => simp [textOf]
      | cons y u =>
        have := hu y rfl
        simp only [List.mem_cons, List.not_mem_nil, or_false, not_or] at this
        simp [textOf, this.2.2.1, this.2.2.2]
    have e5 := (Nom.char_at g4 (c := '"') (by decide)).2 hh.1
    have e6 := (Nom.char_at g4 (c := '\'') (by decide)).2 hh.2
    refine ⟨.code, ?_⟩
    unfold parseIfeq
    rw [e0]
    simp only [err_mapP, error_orElse, e1, done_andThen, e2, e3, e4, if_neg hq, e5, e6, err_andThen]
  | @noQuote2 l l' l'' q q' a gap b as h1 hf ha hg h2 hf2 =>
    have hq : ¬ q = ',' := by rcases h1 with rfl | rfl <;> decide
    have e0 := (Nom.char_at h (c := '(') (by decide)).2 (by rcases h1 with rfl | rfl <;> simp [textOf])
    obtain ⟨i1, e1, g1⟩ := quote_step h1 h
    obtain ⟨i2, q1, e2, g2, k2⟩ := takeTill_quote g1 h1 hf
    obtain ⟨s1, x, e3, _, k3, w3⟩ := parseAst_at hm k2 ha
    obtain ⟨i3, q2, e4, g4, _⟩ := whitespace_at g2
    rw [dropWhile_blanks hg, List.dropWhile_cons_of_neg (by rcases h2 with rfl | rfl <;> simp [lblank])] at g4
    obtain ⟨i4, e5, g5⟩ := quote_step h2 g4
    obtain ⟨k, e6⟩ := takeTill_open g5 (.inr (.inr h2)) hf2
    refine ⟨k, ?_⟩
    unfold parseIfeq
    rw [e0]
    simp only [err_mapP, error_orElse, e1, done_andThen, e2, e3, e4, if_neg hq, e5, e6, done_def, err_andThen]

theorem parseConditionalLine_unclosed {line : List LChar} (hm : Block.Mono P) (h : i.At P line)
    (hu : UnclosedTest (line.dropWhile lblank)) : ∃ k, parseConditionalLine i = .ok (.err (.error k)) := by
  generalize hl : line.dropWhile lblank = l at hu
  obtain @⟨kw, gap, args, hk, hg, hh, hu⟩ := hu
  have hs : args.dropWhile lblank = args := dropWhile_solid fun x hx => by simpa using fun hb => hh x hx (lblank_iff.mp hb)
  simp only [List.mem_cons, List.not_mem_nil, or_false] at hk
  rcases hk with hk | hk
  · obtain ⟨r, e1, g1⟩ := condKeyword_at (k := .ifEq) h hl hk
    rw [dropWhile_blanks hg, hs] at g1
    obtain ⟨k, e2⟩ := parseIfeq_unclosed hm g1 hu
    refine ⟨k, ?_⟩
    unfold parseConditionalLine parseCondF
    simp only [e1, done_andThen, e2, err_mapP]
  · obtain ⟨r, e1, g1⟩ := condKeyword_at (k := .ifNEq) h hl hk
    rw [dropWhile_blanks hg, hs] at g1
    obtain ⟨k, e2⟩ := parseIfeq_unclosed hm g1 hu
    refine ⟨k, ?_⟩
    unfold parseConditionalLine parseCondF
    simp only [e1, done_andThen, e2, err_mapP]

/-- In a branch not taken such a line is skipped. -/
theorem parseLine_unclosed_skip (fs : Fs) {p : PState} {st : St} {line rest : List LChar}
    (h : AtLine P i t line rest p st) (hr : p.currentRule = none ∨ (textOf t).head? ≠ some st.commandChar)
    (hu : UnclosedTest (line.dropWhile lblank)) (hig : p.ignoring = true) :
    ∃ j, j.At P rest ∧ ∀ r, parseLine fs r p st i = .ok (.done j (), p, st) := by
  obtain ⟨j, b, h1, h2, h3⟩ := makefileLine_logical h.at_ h.logical h.comment
  refine ⟨j, h2, fun r => ?_⟩
  rw [parseLine_collapsed fs r h.at_ h.comment h.define h.command hr]
  obtain ⟨k, hk⟩ := parseConditionalLine_unclosed (h3.mono h.pieces h.mono) h3.at hu
  unfold parseCollapsed
  by_cases hlen : b.len = 0
  · simp only [h1, ok_bind, if_pos hlen]
    rfl
  · simp only [h1, ok_bind, if_neg hlen, hk, if_pos hig]
    rfl

/-- Elsewhere it is an ordinary line of words. -/
theorem parseLine_unclosed_words (fs : Fs) {line rest tt : List LChar} {p : PState} {st : St} {vs : List Str}
    (h : Ready P i t line rest p st) (h3 : Physical t line rest)
    (h4 : (textOf line).head? ≠ some st.commandChar) (h5 : UnclosedTest line) (h6 : ¬ VarLike line) (h7 : ¬ DirectiveLike line)
    (h10 : TargetsExpand st.env line tt vs) : LineGives fs P i p st rest p (st.interned vs) := by
  obtain ⟨j, b, e1, e2, e3, e4⟩ := makefileLine_physical h.at_ h3 h.comment
  have hat := e3.at
  have hbm := e3.mono h.pieces h.mono
  have hdrop := h3.solid
  obtain ⟨hnl, hsl, hcm⟩ := h3.free h.comment
  have hne : line ≠ [] := by
    generalize line = l at h10
    cases h10 with
    | last _ hn => simp [hn]
    | more _ hn => simp [hn]
  have hlen : b.len ≠ 0 := by
    have := hat.length
    have e : b.span.length = b.len := rfl
    rw [← e, this]
    simpa using hne
  obtain ⟨N, rest', f4⟩ := parseTargetLine_words fs e4 hbm hat hnl hcm hsl h10 h.wf
  refine ⟨N, j, e2, fun n hn => ?_⟩
  rw [parseLine_collapsed fs _ h.at_ h.comment h.define h.command (.inl h.rule)]
  obtain ⟨k, hv⟩ := parseVariableLine_none (recF fs n) st hat (by rw [hdrop]; exact h6)
  obtain ⟨k', hk'⟩ := parseConditionalLine_unclosed hbm hat (by rw [hdrop]; exact h5)
  unfold parseCollapsed
  simp only [e1, ok_bind, if_neg hlen, hk', if_neg (show ¬ p.ignoring = true by rw [h.active]; decide)]
  unfold parseStatement
  have hcl : p.closeRule (st.interned vs) = .ok (p, st.interned vs) := by
    simp [PState.closeRule, h.rule]
  simp only [hv, ok_bind, parseDirectiveLine_none hat h7, Nom.firstChar_at hat, if_neg h4, f4 n hn, hcl, handleTargetAction]
  rfl

end Hastur
