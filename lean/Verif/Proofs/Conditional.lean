import Verif.Spec.Conditional
import Verif.Proofs.Driver
/-
Lemmas: conditional lines.
-/
namespace Hastur

open Res

variable {P : Block} {t : List LChar} {i : Span}

/-- Which keyword matches is decided by the text. -/
theorem condTag {kw u : List LChar} (h : i.At P (kw ++ u)) {w : Str} (hw : w ∈ condWords)
    (hk : (textOf kw).map lower ∈ condWords) :
    ((textOf kw).map lower = w → ∃ r q, Nom.tagNoCase w i = .ok (.done r q) ∧ r.At P u) ∧
    ((textOf kw).map lower ≠ w → Nom.tagNoCase w i = .ok (.err (.error .code))) := by
  refine ⟨fun e => ?_, fun e => ?_⟩
  · obtain ⟨r, q, h1, h2, _⟩ := (Nom.tagNoCase_at h (condWords_ascii w hw)).1 (by
      rw [condWords_lower w hw, textOf_append, List.map_append, e]
      exact List.prefix_append _ _)
    refine ⟨r, q, h1, ?_⟩
    have : w.length = kw.length := by rw [← e]; simp [textOf]
    rwa [this, List.drop_left] at h2
  · refine (Nom.tagNoCase_at h (condWords_ascii w hw)).2 fun hp => e ?_
    rw [condWords_lower w hw, textOf_append, List.map_append] at hp
    have key : ∀ a ∈ condWords, ∀ b ∈ condWords, a <+: b → a = b := by unfold condWords; decide
    rcases List.prefix_or_prefix_of_prefix hp (List.prefix_append _ _) with h | h
    · exact (key _ hw _ hk h).symm
    · exact key _ hk _ hw h

/-- The keyword with its meaning. -/
def CondType.word : CondType → Str
  | .ifDef => "ifdef".toList
  | .ifNDef => "ifndef".toList
  | .ifEq => "ifeq".toList
  | .ifNEq => "ifneq".toList
  | .else_ => "else".toList
  | .endIf => "endif".toList

theorem condKeyword_at {kw u : List LChar} {k : CondType} (h : i.At P t) (ht : t.dropWhile lblank = kw ++ u)
    (hk : (textOf kw).map lower = k.word) :
    ∃ r, condKeyword i = .ok (.done r k) ∧ r.At P (u.dropWhile lblank) := by
  obtain ⟨r, q, h1, h2, _⟩ := whitespace_at h
  rw [ht] at h2
  have hin : (textOf kw).map lower ∈ condWords := by
    rw [hk]; cases k <;> (unfold condWords CondType.word; decide)
  unfold condKeyword
  rw [h1, done_andThen]
  have m : ∀ w, w ∈ condWords → w ∈ condWords := fun _ h => h
  have c1 := condTag h2 (w := "ifdef".toList) (by unfold condWords; decide) hin
  have c2 := condTag h2 (w := "ifndef".toList) (by unfold condWords; decide) hin
  have c3 := condTag h2 (w := "ifeq".toList) (by unfold condWords; decide) hin
  have c4 := condTag h2 (w := "ifneq".toList) (by unfold condWords; decide) hin
  have c5 := condTag h2 (w := "else".toList) (by unfold condWords; decide) hin
  have c6 := condTag h2 (w := "endif".toList) (by unfold condWords; decide) hin
  rw [hk] at c1 c2 c3 c4 c5 c6
  cases k with
  | ifDef =>
    obtain ⟨s, q', e1, e2⟩ := c1.1 rfl
    obtain ⟨s', q'', w1, w2, _⟩ := whitespace_at e2
    exact ⟨s', by simp only [e1, done_mapP, done_orElse, done_andThen, w1, done_def], w2⟩
  | ifNDef =>
    obtain ⟨s, q', e1, e2⟩ := c2.1 rfl
    obtain ⟨s', q'', w1, w2, _⟩ := whitespace_at e2
    exact ⟨s', by simp only [e1, c1.2 (by decide), err_mapP, error_orElse, done_mapP, done_orElse, done_andThen, w1, done_def], w2⟩
  | ifEq =>
    obtain ⟨s, q', e1, e2⟩ := c3.1 rfl
    obtain ⟨s', q'', w1, w2, _⟩ := whitespace_at e2
    exact ⟨s', by simp only [e1, c1.2 (by decide), c2.2 (by decide), err_mapP, error_orElse, done_mapP, done_orElse, done_andThen, w1, done_def], w2⟩
  | ifNEq =>
    obtain ⟨s, q', e1, e2⟩ := c4.1 rfl
    obtain ⟨s', q'', w1, w2, _⟩ := whitespace_at e2
    exact ⟨s', by simp only [e1, c1.2 (by decide), c2.2 (by decide), c3.2 (by decide), err_mapP, error_orElse, done_mapP, done_orElse, done_andThen, w1, done_def], w2⟩
  | else_ =>
    obtain ⟨s, q', e1, e2⟩ := c5.1 rfl
    obtain ⟨s', q'', w1, w2, _⟩ := whitespace_at e2
    exact ⟨s', by simp only [e1, c1.2 (by decide), c2.2 (by decide), c3.2 (by decide), c4.2 (by decide), err_mapP, error_orElse, done_mapP, done_orElse, done_andThen, w1, done_def], w2⟩
  | endIf =>
    obtain ⟨s, q', e1, e2⟩ := c6.1 rfl
    obtain ⟨s', q'', w1, w2, _⟩ := whitespace_at e2
    exact ⟨s', by simp only [e1, c1.2 (by decide), c2.2 (by decide), c3.2 (by decide), c4.2 (by decide), c5.2 (by decide), err_mapP, error_orElse, done_mapP, done_andThen, w1, done_def], w2⟩

/-! ### The arguments of ifeq -/

theorem indexed_append (n : Nat) (a b : Str) :
    Span.indexed n (a ++ b) = Span.indexed n a ++ Span.indexed (n + a.length) b := by
  induction a generalizing n with
  | nil => rfl
  | cons c a ih => simp [ih, Nat.add_assoc, Nat.add_comm 1]

/-- Text with balanced parentheses is skipped, when its commas are not looked for. -/
theorem ifeqScan_balanced {term : Char} {a : List LChar} (h : Balanced a) :
    ∀ (n : Nat) (count : Int), (term = ',' ∧ 0 < count) ∨ (term = ')' ∧ 0 ≤ count) → ∀ rest : List (Nat × Char),
    ifeqScan term count (Span.indexed n (textOf a) ++ rest) = ifeqScan term count rest := by
  induction h with
  | nil => intros; rfl
  | @char x t h1 h2 _ ih =>
    intro n count hc rest
    have : ¬ (x.1 = term ∧ count ≤ 0) := by
      rintro ⟨rfl, h⟩
      rcases hc with ⟨_, h'⟩ | ⟨h', _⟩
      · omega
      · exact h2 h'
    simp only [textOf, List.map_cons, Span.indexed_cons, List.cons_append, ifeqScan, if_neg h1, if_neg h2, if_neg this]
    exact ih _ _ hc rest
  | @nest l l' a b _ _ iha ihb =>
    intro n count hc rest
    have hc' : (term = ',' ∧ 0 < count + 1) ∨ (term = ')' ∧ 0 ≤ count + 1) := by
      rcases hc with ⟨h, h'⟩ | ⟨h, h'⟩
      · exact .inl ⟨h, by omega⟩
      · exact .inr ⟨h, by omega⟩
    have e : textOf (('(', l) :: (a ++ (')', l') :: b)) = '(' :: (textOf a ++ ')' :: textOf b) := by simp [textOf]
    have hn : ¬ (')' = term ∧ count + 1 - 1 < 0) := by
      rintro ⟨_, h⟩
      rcases hc with ⟨_, h'⟩ | ⟨_, h'⟩ <;> omega
    rw [e, Span.indexed_cons, indexed_append, Span.indexed_cons, List.cons_append, List.append_assoc]
    simp only [ifeqScan, if_true]
    rw [iha _ _ hc']
    simp only [List.cons_append, ifeqScan, if_neg (show ¬ ')' = '(' by decide), if_true, if_neg hn]
    rw [show count + 1 - 1 = count by omega]
    exact ihb _ _ hc rest

theorem ifeqScan_noTopComma {a : List LChar} (h : NoTopComma a) :
    ∀ (n : Nat) (rest : List (Nat × Char)),
    ifeqScan ',' 0 (Span.indexed n (textOf a) ++ rest) = ifeqScan ',' 0 rest := by
  induction h with
  | nil => intros; rfl
  | @char x t h1 h2 h3 _ ih =>
    intro n rest
    simp only [textOf, List.map_cons, Span.indexed_cons, List.cons_append, ifeqScan, if_neg h1, if_neg h2,
      if_neg (show ¬ (x.1 = ',' ∧ (0 : Int) ≤ 0) from fun h => h3 h.1)]
    exact ih _ rest
  | @nest l l' a b ha _ ihb =>
    intro n rest
    have e : textOf (('(', l) :: (a ++ (')', l') :: b)) = '(' :: (textOf a ++ ')' :: textOf b) := by simp [textOf]
    rw [e, Span.indexed_cons, indexed_append, Span.indexed_cons, List.cons_append, List.append_assoc]
    simp only [ifeqScan, if_true]
    rw [ifeqScan_balanced ha _ _ (.inl ⟨rfl, by decide⟩)]
    simp only [List.cons_append, ifeqScan, if_neg (show ¬ ')' = '(' by decide), if_true,
      if_neg (show ¬ (')' = ',' ∧ (0 : Int) + 1 - 1 < 0) by decide)]
    exact ihb _ rest

theorem takeTill_term {a u : List LChar} {c : Char} {l : Location} (hi : i.At P (a ++ (c, l) :: u))
    (hc : c = ',' ∨ c = ')') (hs : ifeqScan c 0 (Span.indexed 0 (textOf (a ++ (c, l) :: u))) = some a.length) :
    ∃ r q, takeTillTerminator c i = .ok (.done r q) ∧ r.At P u ∧ q.At P a := by
  have hca : isAscii c = true := by rcases hc with rfl | rfl <;> decide
  obtain ⟨s, h1, h2⟩ := hi.sliceFrom (n := a.length) (by simp)
  rw [List.drop_left] at h2
  obtain ⟨r, h3, h4⟩ := (Nom.char_at h2 hca).1 _ _ rfl
  have h5 := hi.sliceTo (n := a.length) (by simp)
  rw [List.take_left] at h5
  refine ⟨r, _, ?_, h4, h5⟩
  unfold takeTillTerminator
  rw [if_pos hc, hi.chars]
  simp only [Span.withIndices_eq 0 hi.ascii, hs, h1, ok_bind, h3, done_andThen, done_def]

theorem takeTill_quote {a u : List LChar} {c : Char} {l : Location} (hi : i.At P (a ++ (c, l) :: u))
    (hc : c = '"' ∨ c = '\'') (hf : Free c a) :
    ∃ r q, takeTillTerminator c i = .ok (.done r q) ∧ r.At P u ∧ q.At P a := by
  have hca : isAscii c = true := by rcases hc with rfl | rfl <;> decide
  obtain ⟨s, q, h1, h2, h3⟩ := Nom.takeTill_at hi (· == c)
  have hp : ∀ x ∈ a, (!(x.1 == c)) = true := fun x hx => by simpa using hf x hx
  rw [List.dropWhile_append_of_pos hp, List.dropWhile_cons_of_neg (by simp)] at h2
  rw [List.takeWhile_append_of_pos hp, List.takeWhile_cons_of_neg (by simp), List.append_nil] at h3
  obtain ⟨r, h4, h5⟩ := (Nom.char_at h2 hca).1 _ _ rfl
  refine ⟨r, q, ?_, h5, h3⟩
  have hn : ¬ (c = ',' ∨ c = ')') := by rcases hc with rfl | rfl <;> decide
  unfold takeTillTerminator
  rw [if_neg hn, h1, done_andThen, h4, done_andThen, done_def]

theorem parseIfeq_at (hm : Block.Mono P) {args a b : List LChar} {as bs : List Expr} (h : i.At P args)
    (he : EqArgs args a b) (ha : Reads a (.ok as)) (hb : Reads b (.ok bs)) :
    ∃ r x y, parseIfeq i = .ok (.done r (x, y)) ∧ x.flat = as ∧ y.flat = bs ∧ x.WF ∧ y.WF := by
  cases he with
  | @paren l l' l'' _ gap _ tail h1 h2 h3 h4 =>
    obtain ⟨i1, e1, g1⟩ := (Nom.char_at h (by decide)).1 _ _ rfl
    obtain ⟨i2, q1, e2, g2, k2⟩ := takeTill_term g1 (.inl rfl) (by
      rw [textOf_append, indexed_append, ifeqScan_noTopComma h1]
      simp [textOf, ifeqScan])
    obtain ⟨s1, x, e3, _, k3, w3⟩ := parseAst_at hm k2 ha
    obtain ⟨i3, q2, e4, g4, _⟩ := whitespace_at g2
    have hd : (gap ++ (b ++ (')', l'') :: tail)).dropWhile lblank = b ++ (')', l'') :: tail := by
      rw [dropWhile_blanks h2]
      cases b with
      | nil => rfl
      | cons z b =>
        have := h3 z rfl
        exact List.dropWhile_cons_of_neg (by rw [lblank_iff]; exact this)
    rw [hd] at g4
    obtain ⟨i4, q3, e5, g5, k5⟩ := takeTill_term g4 (.inr rfl) (by
      rw [textOf_append, indexed_append, ifeqScan_balanced h4 _ _ (.inr ⟨rfl, by decide⟩)]
      simp [textOf, ifeqScan])
    obtain ⟨s2, y, e6, _, k6, w6⟩ := parseAst_at hm k5 hb
    refine ⟨i4, x, y, ?_, k3, k6, w3, w6⟩
    unfold parseIfeq
    simp only [e1, done_mapP, done_orElse, done_andThen, e2, e3, e4, if_true, done_def, e5, e6]
  | @quoted l1 l2 l3 l4 q q' _ gap _ tail h1 h2 h3 h4 h5 =>
    have hstep : ∀ {s : Span} {c : Char} {l : Location} {u : List LChar}, c = '"' ∨ c = '\'' → s.At P ((c, l) :: u) →
        ∃ r, orElse ((Nom.char '"' s).mapP fun _ => '"') ((Nom.char '\'' s).mapP fun _ => '\'') = .ok (.done r c) ∧
          r.At P u := by
      intro s c l u hc hs
      rcases hc with rfl | rfl
      · obtain ⟨r, f1, f2⟩ := (Nom.char_at hs (by decide)).1 _ _ rfl
        exact ⟨r, by simp only [f1, done_mapP, done_orElse], f2⟩
      · obtain ⟨r, f1, f2⟩ := (Nom.char_at hs (by decide)).1 _ _ rfl
        refine ⟨r, ?_, f2⟩
        rw [(Nom.char_at hs (c := '"') (by decide)).2 (by simp [textOf])]
        simp only [f1, done_mapP, err_mapP, error_orElse]
    have hq : ¬ q = ',' := by rcases h1 with rfl | rfl <;> decide
    obtain ⟨i1, e1, g1⟩ := hstep h1 h
    obtain ⟨i2, q1, e2, g2, k2⟩ := takeTill_quote g1 h1 h3
    obtain ⟨s1, x, e3, _, k3, w3⟩ := parseAst_at hm k2 ha
    obtain ⟨i3, q2, e4, g4, _⟩ := whitespace_at g2
    rw [dropWhile_blanks h4, List.dropWhile_cons_of_neg (by rcases h2 with rfl | rfl <;> simp [lblank])] at g4
    obtain ⟨i4, e5, g5⟩ := hstep h2 g4
    obtain ⟨i5, q3, e6, g6, k6⟩ := takeTill_quote g5 h2 h5
    obtain ⟨s2, y, e7, _, k7, w7⟩ := parseAst_at hm k6 hb
    refine ⟨i5, x, y, ?_, k3, k7, w3, w7⟩
    unfold parseIfeq
    rw [(Nom.char_at h (c := '(') (by decide)).2 (by rcases h1 with rfl | rfl <;> simp [textOf])]
    simp only [err_mapP, error_orElse, e1, done_andThen, e2, e3, e4, if_neg hq, e5, e6, e7, done_def]

/-! ### The line -/

/-- The parsed conditional is that of the specification. -/
def CondMatches (c : CondLine) (k : Conditional) : Prop :=
  match c with
  | .test false as bs => ∃ x y : Ast, k = .ifEq x y ∧ x.flat = as ∧ y.flat = bs ∧ x.WF ∧ y.WF
  | .test true as bs => ∃ x y : Ast, k = .ifNEq x y ∧ x.flat = as ∧ y.flat = bs ∧ x.WF ∧ y.WF
  | .else_ => k = .else_ none
  | .endif => k = .endIf

theorem parseCond_at (hm : Block.Mono P) {line : List LChar} {c : CondLine} (h : i.At P line)
    (hc : CondText (line.dropWhile lblank) c) :
    ∃ r k, parseConditionalLine i = .ok (.done r k) ∧
      CondMatches c k := by
  generalize hu : line.dropWhile lblank = u at hc
  cases hc with
  | @test kw gap args a b inv as bs h1 h2 h3 h4 h5 =>
    have hargs : args.dropWhile lblank = args := by
      cases h3 with
      | paren => exact List.dropWhile_cons_of_neg (by simp [lblank])
      | quoted hq => exact List.dropWhile_cons_of_neg (by rcases hq with rfl | rfl <;> simp [lblank])
    cases inv with
    | false =>
      obtain ⟨r, e1, g1⟩ := condKeyword_at (k := .ifEq) h hu h1
      rw [dropWhile_blanks h2, hargs] at g1
      obtain ⟨s, x, y, e2, g2⟩ := parseIfeq_at hm g1 h3 h4 h5
      refine ⟨s, .ifEq x y, ?_, x, y, rfl, g2⟩
      unfold parseConditionalLine parseCondF
      simp only [e1, done_andThen, e2, done_mapP]
    | true =>
      obtain ⟨r, e1, g1⟩ := condKeyword_at (k := .ifNEq) h hu h1
      rw [dropWhile_blanks h2, hargs] at g1
      obtain ⟨s, x, y, e2, g2⟩ := parseIfeq_at hm g1 h3 h4 h5
      refine ⟨s, .ifNEq x y, ?_, x, y, rfl, g2⟩
      unfold parseConditionalLine parseCondF
      simp only [e1, done_andThen, e2, done_mapP]
  | @else_ kw gap h1 h2 =>
    obtain ⟨r, e1, g1⟩ := condKeyword_at (k := .else_) h hu h1
    have hg : gap.dropWhile lblank = [] := by
      have := dropWhile_blanks (r := []) h2
      simpa using this
    rw [hg] at g1
    obtain ⟨s, q, e2, g2, _⟩ := whitespace_at g1
    refine ⟨s, _, ?_, rfl⟩
    unfold parseConditionalLine parseCondF
    have : ¬ s.length > 0 := by rw [g2.length]; simp
    simp only [e1, done_andThen, e2, if_neg this, done_def]
  | @endif kw gap h1 h2 =>
    obtain ⟨r, e1, g1⟩ := condKeyword_at (k := .endIf) h hu h1
    have hg : gap.dropWhile lblank = [] := by
      have := dropWhile_blanks (r := []) h2
      simpa using this
    rw [hg] at g1
    refine ⟨r, _, ?_, rfl⟩
    unfold parseConditionalLine parseCondF
    have : ¬ r.length > 0 := by rw [g1.length]; simp
    simp only [e1, done_andThen, if_neg this, done_def]

theorem CondText.ne_nil {line : List LChar} {c : CondLine} (h : CondText (line.dropWhile lblank) c) : line ≠ [] := by
  rintro rfl
  simp only [List.dropWhile_nil] at h
  generalize hu : ([] : List LChar) = u at h
  cases h with
  | @test kw _ _ _ _ inv _ _ h1 =>
    have : kw = [] := (List.append_eq_nil_iff.mp hu.symm).1
    subst this
    cases inv <;> exact absurd h1 (by decide)
  | @else_ kw _ h1 =>
    have : kw = [] := (List.append_eq_nil_iff.mp hu.symm).1
    subst this
    exact absurd h1 (by decide)
  | @endif kw _ h1 =>
    have : kw = [] := (List.append_eq_nil_iff.mp hu.symm).1
    subst this
    exact absurd h1 (by decide)

/-- The parser is at the front of `t`, which does not begin with a comment, and finds `line` there, however its end was found;
`rest` follows it. -/
structure FoundLine (P : Block) (i : Span) (t line rest : List LChar) (p : PState) (st : St) : Prop where
  pieces : P.content.length ≤ 1
  mono : Block.Mono P
  at_ : i.At P t
  comment : parseCommentFollowingWhitespace i = .ok (.err (.error .code))
  found : ∃ r b, makefileLine i .gnu true = .ok (.done r b) ∧ r.At P rest ∧ LineBlock P line b
  define : p.currentDefine = none
  command : isAscii st.commandChar = true
  wf : st.WF

theorem AtLine.found {p : PState} {st : St} {line rest : List LChar} (h : AtLine P i t line rest p st) :
    FoundLine P i t line rest p st :=
  ⟨h.pieces, h.mono, h.at_, comment_none h.at_ (free_dropWhile h.comment), makefileLine_logical h.at_ h.logical h.comment,
    h.define, h.command, h.wf⟩

/-- A conditional line is handled as such. -/
theorem parseLine_cond_of (fs : Fs) {p : PState} {st : St} {line rest : List LChar} {c : CondLine}
    (h : FoundLine P i t line rest p st) (hr : p.currentRule = none ∨ (textOf t).head? ≠ some st.commandChar)
    (hc : CondText (line.dropWhile lblank) c) :
    ∃ j k, j.At P rest ∧ (∀ r, parseLine fs r p st i = (do
        let o ← handleConditional r p st k
        return lineResult j o)) ∧
      CondMatches c k := by
  obtain ⟨j, b, h1, h2, h3⟩ := h.found
  have hat := h3.at
  obtain ⟨s, k, e1, e2⟩ := parseCond_at (h3.mono h.pieces h.mono) hat hc
  refine ⟨j, k, h2, fun r => ?_, e2⟩
  rw [parseLine_collapsed_of fs r h.at_ h.comment h.define h.command hr]
  have hlen : b.len ≠ 0 := by
    have := hat.length
    have e : b.span.length = b.len := rfl
    rw [← e, this]
    simpa using hc.ne_nil
  unfold parseCollapsed
  simp only [h1, ok_bind, if_neg hlen, e1]

theorem parseLine_cond (fs : Fs) {p : PState} {st : St} {line rest : List LChar} {c : CondLine}
    (h : AtLine P i t line rest p st) (hr : p.currentRule = none ∨ (textOf t).head? ≠ some st.commandChar)
    (hc : CondText (line.dropWhile lblank) c) :
    ∃ j k, j.At P rest ∧ (∀ r, parseLine fs r p st i = (do
        let o ← handleConditional r p st k
        return lineResult j o)) ∧
      CondMatches c k := parseLine_cond_of fs h.found hr hc

theorem handleIfeq_at (fs : Fs) (p : PState) {st : St} (hst : st.WF) {x y : Ast} (hx : x.WF) (hy : y.WF)
    {u v : List LChar} {us vs : List Str} (h1 : Expands st.env x.flat u us) (h2 : Expands st.env y.flat v vs) (inv : Bool) :
    ∃ N, ∀ n, N ≤ n → handleIfeq (recF fs n) p st x y inv =
      .ok (.ok (), PState.updateIgnoring { p with conditionals := p.conditionals ++
        [⟨(trim (textOf u) == trim (textOf v)) != inv, false⟩] }, st.interned (us ++ vs)) := by
  obtain ⟨N, b, e1, e2, _, e4, _⟩ := eval_stable fs hst hx h1
  rw [← hst.env_interned us] at h2
  obtain ⟨M, b', g1, g2, _, g4, _⟩ := eval_stable fs (hst.interned us) hy h2
  refine ⟨max N M, fun n hn => ?_⟩
  unfold handleIfeq
  have s1 : b.intoString = .ok (textOf u) := by rw [Block.intoString_eq b e4, Block.text, e2]
  have s2 : b'.intoString = .ok (textOf v) := by rw [Block.intoString_eq b' g4, Block.text, g2]
  simp only [e1 n (by omega), g1 n (by omega), ok_bind, s1, s2, St.interned_append]
  rfl

/-- `ifeq` and `ifneq` open a conditional. -/
theorem parseLine_test_of (fs : Fs) {p : PState} {st : St} {line rest : List LChar} {inv : Bool} {as bs : List Expr}
    (h : FoundLine P i t line rest p st) (hr : p.currentRule = none ∨ (textOf t).head? ≠ some st.commandChar)
    (hc : CondText (line.dropWhile lblank) (.test inv as bs))
    {u v : List LChar} {us vs : List Str} (h1 : Expands st.env as u us) (h2 : Expands st.env bs v vs) :
    LineGives fs P i p st rest (PState.updateIgnoring { p with conditionals := p.conditionals ++
        [⟨(trim (textOf u) == trim (textOf v)) != inv, false⟩] }) (st.interned (us ++ vs)) := by
  obtain ⟨j, k, hj, hrun, hk⟩ := parseLine_cond_of fs h hr hc
  cases inv with
  | false =>
    obtain ⟨x, y, rfl, rfl, rfl, hx, hy⟩ := hk
    obtain ⟨N, hN⟩ := handleIfeq_at fs p h.wf hx hy h1 h2 false
    refine ⟨N, j, hj, fun n hn => ?_⟩
    rw [hrun]
    simp only [handleConditional, hN n hn]
    rfl
  | true =>
    obtain ⟨x, y, rfl, rfl, rfl, hx, hy⟩ := hk
    obtain ⟨N, hN⟩ := handleIfeq_at fs p h.wf hx hy h1 h2 true
    refine ⟨N, j, hj, fun n hn => ?_⟩
    rw [hrun]
    simp only [handleConditional, hN n hn]
    rfl

theorem parseLine_test (fs : Fs) {p : PState} {st : St} {line rest : List LChar} {inv : Bool} {as bs : List Expr}
    (h : AtLine P i t line rest p st) (hr : p.currentRule = none ∨ (textOf t).head? ≠ some st.commandChar)
    (hc : CondText (line.dropWhile lblank) (.test inv as bs))
    {u v : List LChar} {us vs : List Str} (h1 : Expands st.env as u us) (h2 : Expands st.env bs v vs) :
    LineGives fs P i p st rest (PState.updateIgnoring { p with conditionals := p.conditionals ++
        [⟨(trim (textOf u) == trim (textOf v)) != inv, false⟩] }) (st.interned (us ++ vs)) :=
  parseLine_test_of fs h.found hr hc h1 h2

/-- `else` turns the innermost conditional around. -/
theorem parseLine_else (fs : Fs) {p : PState} {st : St} {line rest : List LChar}
    (h : AtLine P i t line rest p st) (hr : p.currentRule = none ∨ (textOf t).head? ≠ some st.commandChar)
    (hc : CondText (line.dropWhile lblank) .else_) {cs : List CondState} {e : Bool} (hp : p.conditionals = cs ++ [⟨e, false⟩]) :
    LineGives fs P i p st rest (PState.updateIgnoring { p with conditionals := cs ++ [⟨!e, true⟩] }) st := by
  obtain ⟨j, k, hj, hrun, hk⟩ := parseLine_cond fs h hr hc
  subst hk
  refine ⟨0, j, hj, fun n _ => ?_⟩
  rw [hrun]
  simp only [handleConditional, hp, List.getLast?_concat, List.dropLast_concat]
  rfl

/-- `endif` closes the innermost conditional. -/
theorem parseLine_endif (fs : Fs) {p : PState} {st : St} {line rest : List LChar}
    (h : AtLine P i t line rest p st) (hr : p.currentRule = none ∨ (textOf t).head? ≠ some st.commandChar)
    (hc : CondText (line.dropWhile lblank) .endif) {cs : List CondState} {b : CondState} (hp : p.conditionals = cs ++ [b]) :
    LineGives fs P i p st rest { p with conditionals := cs } st := by
  obtain ⟨j, k, hj, hrun, hk⟩ := parseLine_cond fs h hr hc
  subst hk
  refine ⟨0, j, hj, fun n _ => ?_⟩
  rw [hrun]
  simp only [handleConditional, hp, List.dropLast_concat]
  rw [if_neg (by simp)]
  rfl

/-- A line that is no conditional is skipped in a branch not taken. -/
theorem parseLine_skip (fs : Fs) {p : PState} {st : St} {line rest : List LChar}
    (h : AtLine P i t line rest p st) (hr : p.currentRule = none ∨ (textOf t).head? ≠ some st.commandChar)
    (hc : ¬ CondLike (line.dropWhile lblank)) (hig : p.ignoring = true) :
    ∃ j, j.At P rest ∧ ∀ r, parseLine fs r p st i = .ok (.done j (), p, st) := by
  by_cases hne : line = []
  · subst hne
    obtain ⟨j, b, h1, h2, h3⟩ := makefileLine_logical h.at_ h.logical h.comment
    refine ⟨j, h2, fun r => ?_⟩
    rw [parseLine_collapsed fs r h.at_ h.comment h.define h.command hr]
    have hlen : b.len = 0 := h3.at.length
    unfold parseCollapsed
    simp only [h1, ok_bind, if_pos hlen]
    rfl
  · obtain ⟨j, b, h1, h2, h3⟩ := parseCollapsed_statement fs h.at_ h.logical h.comment hne hc
    refine ⟨j, h1, fun r => ?_⟩
    rw [parseLine_collapsed fs r h.at_ h.comment h.define h.command hr, h3, hig, if_pos rfl]

/-! ### Files -/

/-- The parser's conditionals are those of the specification. -/
def condsOf (bs : List Branch) : List CondState := bs.map fun b => ⟨b.taken, b.seenElse⟩

theorem condsOf_append (bs : List Branch) (b : Branch) : condsOf (bs ++ [b]) = condsOf bs ++ [⟨b.taken, b.seenElse⟩] := by
  simp [condsOf]

theorem condsOf_any (bs : List Branch) : (condsOf bs).any (fun c => !c.executing) = true ↔ ¬ AllTaken bs := by
  simp [condsOf, AllTaken]

theorem VarRun.trans {v v1 v' : Vars} {a : Assignment} {l : List Assignment} (h : VarRun v [a] v1) (h' : VarRun v1 l v') :
    VarRun v (a :: l) v' := by
  cases h with
  | recursive h1 h2 => cases h2; exact .recursive h1 h'
  | simple h1 h2 h3 => cases h3; exact .simple h1 h2 h'
  | conditional h1 h2 h3 => cases h3; exact .conditional h1 h2 h'
  | appendNew h1 h2 h3 => cases h3; exact .appendNew h1 h2 h'
  | append h1 h2 h3 h4 => cases h4; exact .append h1 h2 h3 h'

theorem St.WF.vars_interned {st : St} (h : st.WF) (us : List Str) : (st.interned us).vars = st.vars := by
  have : (st.interned us).lookup = st.lookup := h.lookup_after rfl (cs := us.map .var) rfl
  unfold St.vars
  rw [this]

/-- Lines with conditionals, read one after the other. -/
theorem proc_conds (fs : Fs) (hP : P.content.length ≤ 1) (hm : Block.Mono P) {l : List MLine} (hl : MakeText t l) :
    ∀ {i : Span} {p : PState} {st : St} {bs bs' : List Branch} {v' : Vars}, i.At P t → Free '#' t → p.currentDefine = none →
      p.currentRule = none → p.conditionals = condsOf bs → (p.ignoring = true ↔ ¬ AllTaken bs) →
      isAscii st.commandChar = true → st.WF → CondRun NoSwitch st.vars bs l v' bs' →
      ∃ p' st', Proc fs i p st p' st' ∧ p'.conditionals = condsOf bs' ∧ p'.currentRule = none ∧ p'.currentDefine = none ∧
        st'.WF ∧ st'.vars = v' ∧ st'.db.rules = st.db.rules ∧
        st'.db.targetVariables = st.db.targetVariables ∧ st'.commandChar = st.commandChar := by
  induction hl with
  | nil =>
    intro i p st bs bs' v' h _ hd hr hcs _ _ hw hv
    cases hv
    exact ⟨p, st, .done (by rw [h.length]; rfl), hcs, hr, hd, hw, rfl, rfl, rfl, rfl⟩
  | blank hne hl _ ih =>
    intro i p st bs bs' v' h hf hd hr hcs hig hch hw hv
    cases hv with
    | blank hv =>
    obtain ⟨j, hj, e⟩ := parseLine_blank fs (recF fs 0) h hl hf hd hch (.inl hr)
    obtain ⟨p', st', g1, g2⟩ := ih hj (hf.of_suffix hl.suffix) hd hr hcs hig hch hw hv
    refine ⟨p', st', .trans 0 h hj (hl.lt hne) (fun n _ => ?_) g1, g2⟩
    exact (parseLine_le (recF_le fs (Nat.zero_le n)) fs p st i).ok e
  | assign hl ha hc hn hvv hs _ ih =>
    intro i p st bs bs' v' h hf hd hr hcs hig hch hw hv
    have hne := hl.ne_nil (fun e => ha.dropBlanks.2 (by rw [e]; rfl))
    cases hv with
    | @assign _ v1 _ _ _ _ _ hall hv1 hv =>
      have hig' : p.ignoring = false := by
        cases he : p.ignoring with
        | false => rfl
        | true => exact absurd hall (hig.mp he)
      obtain ⟨nt, ns, h1, h2, h3⟩ := hv1.head (st' := st)
      obtain ⟨N, j, st1, pv, hj, g1, g2, g3, g4⟩ := parseLine_assign_plain fs hP hm h hl hf hd hig' hch hr ha hc hn hvv hw h1
        (fun e => ⟨hs e, h2 e⟩)
      obtain ⟨nt', ns', h1', _, h3'⟩ := hv1.head (st' := st1)
      obtain ⟨rfl, _⟩ := h1.det h1'
      have hv1' := h3' pv g3 g2
      have e1 : st1.vars = v1 := by cases hv1'; rfl
      rw [← e1] at hv
      obtain ⟨p', st', k0, kc, kr, kd, k2, k3, k4, k5, k6⟩ := ih hj (hf.of_suffix hl.suffix) hd hr hcs hig
        (by rw [g2.commandChar]; exact hch) g1 hv
      exact ⟨p', st', .trans N h hj (hl.lt hne) g4 k0, kc, kr, kd, k2, k3, k4.trans g2.rules,
        k5.trans g2.targetVariables, k6.trans g2.commandChar⟩
    | skipAssign hall hv =>
      obtain ⟨j, hj, e⟩ := parseLine_skip fs ⟨hP, hm, h, hl, hf, hd, hch, hw⟩ (.inl hr) hc (hig.mpr hall)
      obtain ⟨p', st', g1, g2⟩ := ih hj (hf.of_suffix hl.suffix) hd hr hcs hig hch hw hv
      exact ⟨p', st', .trans 0 h hj (hl.lt hne) (fun n _ => e _) g1, g2⟩
  | other hl hne' hc _ ih =>
    intro i p st bs bs' v' h hf hd hr hcs hig hch hw hv
    have hne := hl.ne_nil hne'
    cases hv with
    | skip hall hv =>
      obtain ⟨j, hj, e⟩ := parseLine_skip fs ⟨hP, hm, h, hl, hf, hd, hch, hw⟩ (.inl hr) hc (hig.mpr hall)
      obtain ⟨p', st', g1, g2⟩ := ih hj (hf.of_suffix hl.suffix) hd hr hcs hig hch hw hv
      exact ⟨p', st', .trans 0 h hj (hl.lt hne) (fun n _ => e _) g1, g2⟩
  | cond hl hc _ ih =>
    intro i p st bs bs' v' h hf hd hr hcs hig hch hw hv
    have hne := hl.ne_nil hc.ne_nil
    have hat : AtLine _ _ _ _ _ p st := ⟨hP, hm, h, hl, hf, hd, hch, hw⟩
    cases hv with
    | @test _ _ _ _ inv as cs x y xs ys _ hx hy hv =>
      rw [St.vars_env] at hx hy
      obtain ⟨N, j, hj, e⟩ := parseLine_test fs hat (.inl hr) hc hx hy
      rw [← hw.vars_interned (xs ++ ys)] at hv
      obtain ⟨p', st', g1, g2, g3, g4, g5, g6, g7, g8, g9⟩ := ih hj (hf.of_suffix hl.suffix)
        (st := st.interned (xs ++ ys))
        (bs := _ ++ [⟨(trim (textOf x) == trim (textOf y)) != inv, false⟩])
        (p := PState.updateIgnoring { p with conditionals := p.conditionals ++
          [⟨(trim (textOf x) == trim (textOf y)) != inv, false⟩] }) hd hr
        (by rw [condsOf_append, ← hcs]; rfl) (by rw [← condsOf_any, condsOf_append, ← hcs]; rfl) hch (hw.interned _) hv
      exact ⟨p', st', .trans N h hj (hl.lt hne) e g1, g2, g3, g4, g5, g6, g7, g8, g9⟩
    | @else_ _ _ bs _ e _ hv =>
      rw [condsOf_append] at hcs
      obtain ⟨N, j, hj, e'⟩ := parseLine_else fs hat (.inl hr) hc hcs
      obtain ⟨p', st', g1, g2⟩ := ih hj (hf.of_suffix hl.suffix)
        (p := PState.updateIgnoring { p with conditionals := condsOf bs ++ [⟨!e, true⟩] }) hd hr
        (by rw [condsOf_append]; rfl) (by rw [← condsOf_any, condsOf_append]; rfl) hch hw hv
      exact ⟨p', st', .trans N h hj (hl.lt hne) e' g1, g2⟩
    | @endif _ _ bs _ b _ hok hv =>
      rw [condsOf_append] at hcs
      obtain ⟨N, j, hj, e'⟩ := parseLine_endif fs hat (.inl hr) hc hcs
      have hig' : p.ignoring = true ↔ ¬ AllTaken bs := by
        rw [hig]
        refine ⟨fun hh ha => hh ?_, fun hh ha => hh fun x hx => ha x (by simp [hx])⟩
        rcases hok with hb | hb
        · intro x hx
          rcases List.mem_append.mp hx with hx | hx
          · exact ha x hx
          · cases List.mem_singleton.mp hx
            exact hb
        · exact absurd ha hb
      obtain ⟨p', st', g1, g2⟩ := ih hj (hf.of_suffix hl.suffix)
        (p := { p with conditionals := condsOf bs }) hd hr rfl hig' hch hw hv
      exact ⟨p', st', .trans N h hj (hl.lt hne) e' g1, g2⟩

end Hastur
