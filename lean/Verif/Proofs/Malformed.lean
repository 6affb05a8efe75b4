import Verif.Spec.Malformed
import Verif.Proofs.Unsupported
import Verif.Proofs.Conditional
/-
Lemmas: malformed conditional lines.
-/
namespace Hastur

open Res Span

variable {P : Block} {t : List LChar} {i : Span}

/-- What becomes of a test whose second argument, or first, is not well-formed. -/
theorem parseIfeq_bad (hm : Block.Mono P) {args a b : List LChar} (h : i.At P args) (he : EqArgs args a b)
    (hbad : (∃ k, Reads a (.error k)) ∨ ∃ as k, Reads a (.ok as) ∧ Reads b (.error k)) :
    ∃ k, parseIfeq i = .ok (.err (.failure k)) := by
  cases he with
  | @paren l l' l'' _ gap _ tail h1 h2 h3 h4 =>
    obtain ⟨i1, e1, g1⟩ := (Nom.char_at h (by decide)).1 _ _ rfl
    obtain ⟨i2, q1, e2, g2, k2⟩ := takeTill_term g1 (.inl rfl) (by
      rw [textOf_append, indexed_append, ifeqScan_noTopComma h1]
      simp [textOf, ifeqScan])
    rcases hbad with ⟨k, hk⟩ | ⟨as, k, ha, hk⟩
    · have e3 := (parseAst_at hm k2 hk).1
      refine ⟨.custom k, ?_⟩
      unfold parseIfeq
      simp only [e1, done_mapP, done_orElse, done_andThen, e2, e3, err_andThen]
    · obtain ⟨s1, x, e3, _, k3, w3⟩ := parseAst_at hm k2 ha
      obtain ⟨i3, q2, e4, g4, _⟩ := whitespace_at g2
      have hd : (gap ++ (b ++ (')', l'') :: tail)).dropWhile lblank = b ++ (')', l'') :: tail := by
        rw [dropWhile_blanks h2]
        cases b with
        | nil => rfl
        | cons z b =>
          have := h3 z rfl
          exact List.dropWhile_cons_of_neg (by rw [lblank_iff]; exact this)
      rw [hd] at g4
      obtain ⟨i4, q3, e5, g5, k5⟩ := takeTill_term g4 (.inr rfl) (by
        rw [textOf_append, indexed_append, ifeqScan_balanced h4 _ _ (.inr ⟨rfl, by decide⟩)]
        simp [textOf, ifeqScan])
      have e6 := (parseAst_at hm k5 hk).1
      refine ⟨.custom k, ?_⟩
      unfold parseIfeq
      simp only [e1, done_mapP, done_orElse, done_andThen, e2, e3, e4, if_true, done_def, e5, e6, err_andThen]
  | @quoted l1 l2 l3 l4 q q' _ gap _ tail h1 h2 h3 h4 h5 =>
    have hstep : ∀ {s : Span} {c : Char} {l : Location} {u : List LChar}, c = '"' ∨ c = '\'' → s.At P ((c, l) :: u) →
        ∃ r, orElse ((Nom.char '"' s).mapP fun _ => '"') ((Nom.char '\'' s).mapP fun _ => '\'') = .ok (.done r c) ∧
          r.At P u := by
      intro s c l u hc hs
      rcases hc with rfl | rfl
      · obtain ⟨r, f1, f2⟩ := (Nom.char_at hs (by decide)).1 _ _ rfl
        exact ⟨r, by simp only [f1, done_mapP, done_orElse], f2⟩
      · obtain ⟨r, f1, f2⟩ := (Nom.char_at hs (by decide)).1 _ _ rfl
        refine ⟨r, ?_, f2⟩
        rw [(Nom.char_at hs (c := '"') (by decide)).2 (by simp [textOf])]
        simp only [f1, done_mapP, err_mapP, error_orElse]
    have hq : ¬ q = ',' := by rcases h1 with rfl | rfl <;> decide
    obtain ⟨i1, e1, g1⟩ := hstep h1 h
    obtain ⟨i2, q1, e2, g2, k2⟩ := takeTill_quote g1 h1 h3
    have e0 := (Nom.char_at h (c := '(') (by decide)).2 (by rcases h1 with rfl | rfl <;> simp [textOf])
    rcases hbad with ⟨k, hk⟩ | ⟨as, k, ha, hk⟩
    · have e3 := (parseAst_at hm k2 hk).1
      refine ⟨.custom k, ?_⟩
      unfold parseIfeq
      rw [e0]
      simp only [err_mapP, error_orElse, e1, done_andThen, e2, e3, err_andThen]
    · obtain ⟨s1, x, e3, _, k3, w3⟩ := parseAst_at hm k2 ha
      obtain ⟨i3, q2, e4, g4, _⟩ := whitespace_at g2
      rw [dropWhile_blanks h4, List.dropWhile_cons_of_neg (by rcases h2 with rfl | rfl <;> simp [lblank])] at g4
      obtain ⟨i4, e5, g5⟩ := hstep h2 g4
      obtain ⟨i5, q3, e6, g6, k6⟩ := takeTill_quote g5 h2 h5
      have e7 := (parseAst_at hm k6 hk).1
      refine ⟨.custom k, ?_⟩
      unfold parseIfeq
      rw [e0]
      simp only [err_mapP, error_orElse, e1, done_andThen, e2, e3, e4, if_neg hq, e5, e6, e7, done_def, err_andThen]

theorem EqArgs.solid {args a b : List LChar} (h : EqArgs args a b) : args.dropWhile lblank = args := by
  cases h with
  | paren => exact List.dropWhile_cons_of_neg (by simp [lblank])
  | quoted hq => exact List.dropWhile_cons_of_neg (by rcases hq with rfl | rfl <;> simp [lblank])

/-- A malformed test is a failure of the parser for conditionals. -/
theorem parseConditionalLine_test {line kw gap args a b : List LChar} (hm : Block.Mono P) (h : i.At P line)
    (hl : line.dropWhile lblank = kw ++ (gap ++ args)) (hk : (textOf kw).map lower ∈ ["ifeq".toList, "ifneq".toList])
    (hg : Blanks gap) (he : EqArgs args a b)
    (hbad : (∃ k, Reads a (.error k)) ∨ ∃ as k, Reads a (.ok as) ∧ Reads b (.error k)) :
    ∃ k, parseConditionalLine i = .ok (.err (.failure k)) := by
  simp only [List.mem_cons, List.not_mem_nil, or_false] at hk
  rcases hk with hk | hk
  · obtain ⟨r, e1, g1⟩ := condKeyword_at (k := .ifEq) h hl hk
    rw [dropWhile_blanks hg, he.solid] at g1
    obtain ⟨k, e2⟩ := parseIfeq_bad hm g1 he hbad
    refine ⟨k, ?_⟩
    unfold parseConditionalLine parseCondF
    simp only [e1, done_andThen, e2, err_mapP]
  · obtain ⟨r, e1, g1⟩ := condKeyword_at (k := .ifNEq) h hl hk
    rw [dropWhile_blanks hg, he.solid] at g1
    obtain ⟨k, e2⟩ := parseIfeq_bad hm g1 he hbad
    refine ⟨k, ?_⟩
    unfold parseConditionalLine parseCondF
    simp only [e1, done_andThen, e2, err_mapP]

theorem parseConditionalLine_endif {line kw u : List LChar} {x : LChar} (h : i.At P line)
    (hl : line.dropWhile lblank = kw ++ u) (hk : (textOf kw).map lower = "endif".toList) (hx : x ∈ u)
    (hb : ¬ (x.1 = ' ' ∨ x.1 = '\t')) : ∃ k, parseConditionalLine i = .ok (.err (.failure k)) := by
  obtain ⟨r, e1, g1⟩ := condKeyword_at (k := .endIf) h hl hk
  refine ⟨.custom (.extraTokensAfter "endif".toList), ?_⟩
  unfold parseConditionalLine parseCondF
  have : r.length > 0 := by
    rw [g1.length]
    exact List.length_pos_of_ne_nil (elseIf_rest hx hb)
  simp only [e1, done_andThen, if_pos this]
  rfl

/-- If parsing the conditional is a failure, the line is rejected. -/
theorem parseLine_condFailure (fs : Fs) {p : PState} {st : St} {line rest : List LChar}
    (h : AtLine P i t line rest p st) (hr : p.currentRule = none ∨ (textOf t).head? ≠ some st.commandChar) (hne : line ≠ [])
    (hc : ∀ b : Block, Block.Mono b → b.span.At b line → ∃ k, parseConditionalLine b.span = .ok (.err (.failure k)))
    (r : Rec) (j : Span) (p' : PState) (st' : St) : parseLine fs r p st i ≠ .ok (.done j (), p', st') := by
  intro hp
  obtain ⟨j, b, h1, h2, h3⟩ := makefileLine_logical h.at_ h.logical h.comment
  have hat := h3.at
  rw [parseLine_collapsed fs r h.at_ h.comment h.define h.command hr] at hp
  have hlen : b.len ≠ 0 := by
    have := hat.length
    have e' : b.span.length = b.len := rfl
    rw [← e', this]
    simpa using hne
  obtain ⟨k, hk⟩ := hc b (h3.mono h.pieces h.mono) hat
  unfold parseCollapsed at hp
  simp only [h1, ok_bind, if_neg hlen, hk] at hp
  cases hp

theorem BadCond.ne_nil {line : List LChar} (h : BadCond (line.dropWhile lblank)) : line ≠ [] := by
  rintro rfl
  simp only [List.dropWhile_nil] at h
  generalize hu : ([] : List LChar) = u at h
  have : ∀ {kw rest : List LChar}, [] = kw ++ rest → textOf kw = [] := fun e => by
    rw [(List.append_eq_nil_iff.mp e.symm).1]; rfl
  cases h with
  | afterElse h1 => rw [this hu] at h1; cases h1
  | afterEndif h1 => rw [this hu] at h1; cases h1
  | first h1 => rw [this hu] at h1; revert h1; decide
  | second h1 => rw [this hu] at h1; revert h1; decide

/-- Malformed conditionals are rejected. -/
theorem parseLine_badCond (fs : Fs) {p : PState} {st : St} {line rest : List LChar}
    (h : AtLine P i t line rest p st) (hr : p.currentRule = none ∨ (textOf t).head? ≠ some st.commandChar)
    (hc : BadCond (line.dropWhile lblank)) (r : Rec) (j : Span) (p' : PState) (st' : St) :
    parseLine fs r p st i ≠ .ok (.done j (), p', st') := by
  have hne := hc.ne_nil
  generalize hl : line.dropWhile lblank = u at hc
  cases hc with
  | afterElse h1 h2 h3 => exact parseLine_unsupportedCond fs h hr (by rw [hl]; exact .elseIf h1 h2 h3) r j p' st'
  | afterEndif h1 h2 h3 =>
    exact parseLine_condFailure fs h hr hne (fun b hm hb => parseConditionalLine_endif hb hl h1 h2 h3) r j p' st'
  | first h1 h2 h3 h4 =>
    exact parseLine_condFailure fs h hr hne
      (fun b hm hb => parseConditionalLine_test hm hb hl h1 h2 h3 (.inl ⟨_, h4⟩)) r j p' st'
  | second h1 h2 h3 h4 h5 =>
    exact parseLine_condFailure fs h hr hne
      (fun b hm hb => parseConditionalLine_test hm hb hl h1 h2 h3 (.inr ⟨_, _, h4, h5⟩)) r j p' st'

end Hastur
