import Verif.Proofs.Text
/-
Lemmas: span operations against the text.
-/
namespace Hastur

@[simp] theorem rassert_true : rassert true = .ok () := rfl
theorem rassert_of {b : Bool} (h : b = true) : rassert b = .ok () := by rw [h]; rfl
theorem usub_of_le {a b : Nat} (h : b ≤ a) : usub a b = .ok (a - b) := by simp [usub, h]

theorem CRef.ltextList_len {cs : List CRef} (h : CRef.WFList cs) : (CRef.ltextList cs).length = lensum cs :=
  CRef.ltextList_length cs h

namespace Span

theorem wf_contents {s : Span} (h : Block.WF s.parent) : CRef.WFList s.contents := by
  rw [Block.wf_eq] at h
  exact CRef.wfList_drop _ h

theorem Good.wf {s : Span} (h : s.Good) : s.WF := by
  obtain ⟨h1, h2⟩ := h
  refine ⟨h1, ?_⟩
  rcases h2 with h2 | ⟨c, cs, h3, h4, h5⟩
  · exact Or.inl h2
  · exact Or.inr ⟨c, cs, h3, Nat.le_of_lt h4, h5⟩

theorem WF.bound {s : Span} (h : s.WF) : s.length = 0 ∨ s.offset + s.length ≤ lensum s.contents := by
  rcases h.2 with h | ⟨c, cs, h1, h2, h3⟩
  · exact Or.inl h
  · right; rw [h1]; simpa using h3

theorem ltext_length {s : Span} (h : s.WF) : s.ltext.length = s.length := by
  have hc := CRef.ltextList_len (wf_contents h.1)
  rw [ltext, List.length_take, List.length_drop, hc]
  rcases h.bound with h | h <;> omega

theorem text_length {s : Span} (h : s.WF) : s.text.length = s.length := by
  simp [text, textOf, ltext_length h]

theorem ascii {s : Span} (h : s.WF) : AsciiS s.text := by
  have := CRef.ltextList_ascii _ (wf_contents h.1)
  simp only [text, textOf, ltext, List.map_take, List.map_drop]
  exact (this.drop _).take _

/-! ### Characters -/

theorem chars_eq {s : Span} (h : s.WF) : s.chars = ⟨s.text, false⟩ := by
  have ht : s.text = ((textOf (CRef.ltextList s.contents)).drop s.offset).take s.length := by
    simp [text, textOf, ltext, List.map_take, List.map_drop]
  obtain ⟨hb, hw⟩ := h
  have hc := wf_contents hb
  unfold chars
  rcases hw with h0 | ⟨c, cs, h1, h2, h3⟩
  · rw [ht, h0]
    cases hcs : s.contents with
    | nil => simp [limitBytes]
    | cons c cs => simp [limitBytes]
  · rw [h1] at hc ht ⊢
    have hl := CRef.ltext_length c hc.1
    have hll := CRef.ltextList_len hc.2
    simp only [CRef.chars_eq c hc.1, CRef.charsList_eq cs hc.2, CStream.skip, CStream.append]
    have hd : (textOf (CRef.ltext c)).drop s.offset ++ textOf (CRef.ltextList cs)
        = (textOf (CRef.ltextList (c :: cs))).drop s.offset := by
      have hl' : s.offset ≤ (List.map Prod.fst (CRef.ltext c)).length := by simp [hl]; exact h2
      simp only [textOf, CRef.ltextList_cons, List.map_append]
      rw [List.drop_append_of_le_length hl']
    simp only [Bool.false_eq_true, if_false, hd]
    rw [limitBytes_ascii _ _ _ ((CRef.ltextList_ascii _ hc).drop _), ht]
    simp

@[simp] theorem withIndices_ascii (n : Nat) (t : Str) (h : AsciiS t) :
    withIndices n t = (t.zipIdx n).map fun p => (p.2, p.1) := by
  induction t generalizing n with
  | nil => rfl
  | cons c t ih =>
    obtain ⟨h1, h2⟩ := h.of_cons
    simp [withIndices, utf8Size_ascii h1, ih _ h2]

theorem intoString_eq {s : Span} (h : s.WF) : s.intoString = .ok s.text := by
  unfold intoString
  by_cases h0 : s.length = 0
  · rw [if_pos h0]
    have := text_length h
    rw [h0, List.length_eq_zero_iff] at this
    rw [this]
  · rw [if_neg h0, chars_eq h]; rfl

/-! ### Slicing -/

theorem revalLoop_spec {cs : List CRef} (hw : CRef.WFList cs) (start offset : Nat) (h : offset < lensum cs) :
    ∃ k c rest o, revalLoop cs start offset = .ok (start + k, o) ∧ cs.drop k = c :: rest ∧ o < c.length ∧
      lensum (cs.take k) + o = offset ∧
      (CRef.ltextList cs).drop offset = (CRef.ltextList (c :: rest)).drop o ∧
      lensum cs = lensum (cs.take k) + (c.length + lensum rest) := by
  induction cs generalizing start offset with
  | nil => simp at h
  | cons c cs ih =>
    simp only [revalLoop]
    by_cases hc : c.length ≤ offset
    · rw [if_pos hc]
      have h' : offset - c.length < lensum cs := by simp at h; omega
      obtain ⟨k, d, rest, o, h1, h2, h3, h4, h5, h6⟩ := ih hw.2 (start + 1) (offset - c.length) h'
      refine ⟨k + 1, d, rest, o, ?_, by simpa using h2, h3, ?_, ?_, ?_⟩
      · rw [h1]; simp; omega
      · simp; omega
      · rw [← h5, CRef.ltextList_cons, List.drop_append, List.drop_of_length_le (by rw [CRef.ltext_length c hw.1]; exact hc),
          CRef.ltext_length c hw.1]; rfl
      · simp; omega
    · rw [if_neg hc]
      exact ⟨0, c, cs, offset, rfl, rfl, by omega, by simp, rfl, by simp⟩

theorem revalidate_spec {s : Span} (hb : Block.WF s.parent)
    (h : s.length = 0 ∨ s.offset + s.length ≤ lensum s.contents) :
    ∃ t, s.revalidate = .ok t ∧ t.parent = s.parent ∧ t.length = s.length ∧ t.ltext = s.ltext ∧ t.Good := by
  unfold revalidate
  by_cases h0 : s.length = 0
  · rw [if_pos h0]
    exact ⟨s, rfl, rfl, rfl, rfl, hb, Or.inl h0⟩
  · rw [if_neg h0]
    have h := h.resolve_left h0
    obtain ⟨k, c, rest, o, h1, h2, h3, h4, h5, h6⟩ :=
      revalLoop_spec (wf_contents hb) s.start s.offset (by omega)
    rw [h1]
    refine ⟨_, rfl, rfl, rfl, ?_, hb, Or.inr ⟨c, rest, ?_, h3, ?_⟩⟩
    · simp only [ltext]
      rw [h5, ← h2]
      simp [contents, List.drop_drop]
    · simp only [contents] at h2 ⊢
      rw [← h2, List.drop_drop]
    · simp only; omega

/-- The tail of a span. -/
def dropS (s : Span) (n : Nat) : Span :=
  match s.sliceFrom n with
  | .ok t => t
  | _ => s

theorem sliceFrom_spec {s : Span} (h : s.WF) {n : Nat} (hn : n ≤ s.length) :
    s.sliceFrom n = .ok (s.dropS n) ∧ (s.dropS n).parent = s.parent ∧ (s.dropS n).length = s.length - n ∧
      (s.dropS n).ltext = s.ltext.drop n ∧ (s.dropS n).Good := by
  have hr := revalidate_spec (s := { s with offset := s.offset + n, length := s.length - n }) h.1 (by
    rcases h.bound with h | h
    · left; simp only; omega
    · right; simp only [contents] at h ⊢; omega)
  obtain ⟨t, h1, h2, h3, h4, h5⟩ := hr
  have hs : s.sliceFrom n = .ok t := by
    unfold sliceFrom
    rw [usub_of_le hn]
    exact h1
  have hd : s.dropS n = t := by simp [dropS, hs]
  rw [hd]
  refine ⟨hs, h2, h3, ?_, h5⟩
  rw [h4]
  simp only [ltext, contents]
  rw [List.drop_take, List.drop_drop]

theorem sliceFrom_eq {s : Span} (h : s.WF) {n : Nat} (hn : n ≤ s.length) : s.sliceFrom n = .ok (s.dropS n) :=
  (sliceFrom_spec h hn).1
theorem dropS_parent {s : Span} (h : s.WF) {n : Nat} (hn : n ≤ s.length) : (s.dropS n).parent = s.parent :=
  (sliceFrom_spec h hn).2.1
theorem dropS_length {s : Span} (h : s.WF) {n : Nat} (hn : n ≤ s.length) : (s.dropS n).length = s.length - n :=
  (sliceFrom_spec h hn).2.2.1
theorem dropS_ltext {s : Span} (h : s.WF) {n : Nat} (hn : n ≤ s.length) : (s.dropS n).ltext = s.ltext.drop n :=
  (sliceFrom_spec h hn).2.2.2.1
theorem dropS_good {s : Span} (h : s.WF) {n : Nat} (hn : n ≤ s.length) : (s.dropS n).Good :=
  (sliceFrom_spec h hn).2.2.2.2
theorem dropS_text {s : Span} (h : s.WF) {n : Nat} (hn : n ≤ s.length) : (s.dropS n).text = s.text.drop n := by
  simp [text, textOf, dropS_ltext h hn, List.map_drop]

@[simp] theorem sliceTo_parent (s : Span) (n : Nat) : (s.sliceTo n).parent = s.parent := rfl
@[simp] theorem sliceTo_length (s : Span) (n : Nat) : (s.sliceTo n).length = n := rfl
theorem sliceTo_ltext {s : Span} {n : Nat} (hn : n ≤ s.length) : (s.sliceTo n).ltext = s.ltext.take n := by
  simp only [ltext, sliceTo, contents]
  rw [List.take_take, Nat.min_eq_left hn]
theorem sliceTo_text {s : Span} {n : Nat} (hn : n ≤ s.length) : (s.sliceTo n).text = s.text.take n := by
  simp [text, textOf, sliceTo_ltext hn, List.map_take]
theorem sliceTo_wf {s : Span} (h : s.WF) {n : Nat} (hn : n ≤ s.length) : (s.sliceTo n).WF := by
  refine ⟨h.1, ?_⟩
  rcases h.2 with h0 | ⟨c, cs, h1, h2, h3⟩
  · left; simp [sliceTo]; omega
  · exact Or.inr ⟨c, cs, h1, h2, by simp only [sliceTo]; omega⟩
theorem sliceTo_good {s : Span} (h : s.Good) {n : Nat} (hn : n ≤ s.length) : (s.sliceTo n).Good := by
  refine ⟨h.1, ?_⟩
  rcases h.2 with h0 | ⟨c, cs, h1, h2, h3⟩
  · left; simp [sliceTo]; omega
  · exact Or.inr ⟨c, cs, h1, h2, by simp only [sliceTo]; omega⟩

theorem slice_spec {s : Span} (h : s.WF) {a b : Nat} (hab : a ≤ b) (hb : b ≤ s.length) :
    ∃ t, s.slice a b = .ok t ∧ t.parent = s.parent ∧ t.length = b - a ∧
      t.ltext = (s.ltext.drop a).take (b - a) ∧ t.Good := by
  have hr := revalidate_spec (s := { s with offset := s.offset + a, length := b - a }) h.1 (by
    rcases h.bound with h | h
    · left; simp only; omega
    · right; simp only [contents] at h ⊢; omega)
  obtain ⟨t, h1, h2, h3, h4, h5⟩ := hr
  refine ⟨t, ?_, h2, h3, ?_, h5⟩
  · unfold slice
    rw [usub_of_le hab]
    exact h1
  · rw [h4]
    simp only [ltext, contents]
    rw [List.drop_take, List.drop_drop, List.take_take, Nat.min_eq_left (by omega)]

/-- Part of a span. -/
def sliceS (s : Span) (a b : Nat) : Span :=
  match s.slice a b with
  | .ok t => t
  | _ => s

theorem slice_eq {s : Span} (h : s.WF) {a b : Nat} (hab : a ≤ b) (hb : b ≤ s.length) :
    s.slice a b = .ok (s.sliceS a b) := by
  obtain ⟨t, h1, _⟩ := slice_spec h hab hb
  simp [sliceS, h1]
theorem sliceS_parent {s : Span} (h : s.WF) {a b : Nat} (hab : a ≤ b) (hb : b ≤ s.length) :
    (s.sliceS a b).parent = s.parent := by
  obtain ⟨t, h1, h2, _⟩ := slice_spec h hab hb
  simp [sliceS, h1, h2]
theorem sliceS_length {s : Span} (h : s.WF) {a b : Nat} (hab : a ≤ b) (hb : b ≤ s.length) :
    (s.sliceS a b).length = b - a := by
  obtain ⟨t, h1, _, h2, _⟩ := slice_spec h hab hb
  simp [sliceS, h1, h2]
theorem sliceS_ltext {s : Span} (h : s.WF) {a b : Nat} (hab : a ≤ b) (hb : b ≤ s.length) :
    (s.sliceS a b).ltext = (s.ltext.drop a).take (b - a) := by
  obtain ⟨t, h1, _, _, h2, _⟩ := slice_spec h hab hb
  simp [sliceS, h1, h2]
theorem sliceS_text {s : Span} (h : s.WF) {a b : Nat} (hab : a ≤ b) (hb : b ≤ s.length) :
    (s.sliceS a b).text = (s.text.drop a).take (b - a) := by
  simp [text, textOf, sliceS_ltext h hab hb, List.map_take, List.map_drop]
theorem sliceS_good {s : Span} (h : s.WF) {a b : Nat} (hab : a ≤ b) (hb : b ≤ s.length) :
    (s.sliceS a b).Good := by
  obtain ⟨t, h1, _, _, _, h2⟩ := slice_spec h hab hb
  simp [sliceS, h1, h2]

theorem takeSplit_eq {s : Span} (h : s.WF) {n : Nat} (hn : n ≤ s.length) :
    s.takeSplit n = .ok (s.dropS n, s.sliceTo n) := by
  unfold takeSplit
  rw [rassert_of (by simpa using hn), Res.ok_bind, sliceFrom_eq h hn]
  rfl

theorem emptyAtEnd_good {s : Span} (h : s.WF) : s.emptyAtEnd.Good := ⟨h.1, Or.inl rfl⟩
@[simp] theorem emptyAtEnd_ltext (s : Span) : s.emptyAtEnd.ltext = [] := by simp [emptyAtEnd, ltext]
@[simp] theorem emptyAtEnd_text (s : Span) : s.emptyAtEnd.text = [] := by simp [text, textOf]
@[simp] theorem emptyAtEnd_length (s : Span) : s.emptyAtEnd.length = 0 := rfl

end Span

/-! ### The span of a block -/

@[simp] theorem Block.span_parent (b : Block) : b.span.parent = b := rfl
@[simp] theorem Block.span_contents (b : Block) : b.span.contents = b.content := rfl
@[simp] theorem Block.span_length (b : Block) : b.span.length = b.len := rfl

theorem Block.span_wf {b : Block} (h : Block.WF b) : b.span.WF := by
  refine ⟨h, ?_⟩
  rcases b with ⟨s, content⟩
  cases content with
  | nil => left; rfl
  | cons c cs => exact Or.inr ⟨c, cs, rfl, Nat.zero_le _, by simp [span, Block.len_eq]⟩

theorem Block.span_good {b : Block} (h : Block.WF b) (hs : b.Solid) : b.span.Good := by
  refine ⟨h, ?_⟩
  rcases b with ⟨s, content⟩
  cases content with
  | nil => left; rfl
  | cons c cs =>
    have : 0 < c.length := hs c (by simp)
    exact Or.inr ⟨c, cs, rfl, this, by simp [span, Block.len_eq]⟩

theorem Block.span_ltext {b : Block} (h : Block.WF b) : b.span.ltext = Block.ltext b := by
  have hl := Block.ltext_length b h
  simp only [Span.ltext, Block.span_contents, Block.span_length]
  rw [← Block.ltext_eq, show b.span.offset = 0 from rfl, List.drop_zero, ← hl, List.take_length]

theorem Block.span_text {b : Block} (h : Block.WF b) : b.span.text = b.text := by
  simp [Span.text, Block.text, Block.span_ltext h]

end Hastur
