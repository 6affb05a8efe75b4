import Verif.Proofs.Search
import Verif.Spec.Slices
/-
C10-C19: blocks and spans.

`ltext` is the text with the location of every character (Spec/Text.lean).  `WF` means ASCII text and references
that lie inside their nodes.
-/
namespace Hastur

open Span

/-! Example data used below to show that the hypotheses can be met. -/
namespace Example

/-- The text `ab` of file 7, line 3. -/
def cAB : Node := .constant ⟨.source 3 1 ⟨7⟩, "ab".toList⟩
/-- The text `x⏎yz` of file 7, line 9. -/
def cXYZ : Node := .constant ⟨.source 9 5 ⟨7⟩, "x\nyz".toList⟩
/-- Two constants wrapped in one node: `abx⏎yz`. -/
def inner : Node := .concat ⟨[⟨4⟩], [CRef.ofNode cAB, CRef.ofNode cXYZ]⟩
/-- A block that sees `bx⏎y` through the wrapper, then nothing, then `ab`. -/
def block : Block := ⟨[⟨1⟩, ⟨2⟩], [⟨1, 4, inner⟩, ⟨0, 0, cAB⟩, ⟨0, 2, cAB⟩]⟩

theorem block_wf : Block.WF block := by
  have h1 : AsciiS "ab".toList := by unfold AsciiS; decide
  have h2 : AsciiS "x\nyz".toList := by unfold AsciiS; decide
  exact ⟨⟨by decide, ⟨⟨by decide, h1⟩, ⟨by decide, h2⟩, trivial⟩⟩, ⟨by decide, h1⟩, ⟨by decide, h1⟩, trivial⟩

example : textOf (Block.ltext block) = "bx\nyab".toList := by decide
example : (Block.ltext block).map Prod.snd =
    [.source 3 2 ⟨7⟩, .source 9 5 ⟨7⟩, .source 9 6 ⟨7⟩, .source 10 1 ⟨7⟩, .source 3 1 ⟨7⟩, .source 3 2 ⟨7⟩] := by decide

/-- A block of two constants. -/
def flat : Block := ⟨[], [CRef.ofNode cAB, CRef.ofNode cXYZ]⟩
theorem flat_wf : Block.WF flat := by
  have h1 : AsciiS "ab".toList := by unfold AsciiS; decide
  have h2 : AsciiS "x\nyz".toList := by unfold AsciiS; decide
  exact ⟨⟨by decide, h1⟩, ⟨by decide, h2⟩, trivial⟩
theorem flat_solid : flat.Solid := by
  intro c hc
  rcases List.mem_cons.mp hc with rfl | hc
  · decide
  · rcases List.mem_cons.mp hc with rfl | hc
    · decide
    · cases hc
theorem flat_mono : Block.Mono flat := ⟨trivial, trivial, trivial⟩

end Example

/-! ### C10 -/

/-- Simplifying a block keeps every character with its location, the length and the sensitivity; it does not
panic; and it leaves no empty reference behind. -/
theorem C10_simplify_keeps_text (b : Block) (h : Block.WF b) :
    ∃ b', b.simplify = .ok b' ∧ Block.ltext b' = Block.ltext b ∧ b'.len = b.len ∧ b'.sens = b.sens ∧
      Block.WF b' ∧ b'.Solid := by
  obtain ⟨b', h1, h2, h3, h4, h5, h6, _⟩ := Block.simplify_spec h
  exact ⟨b', h1, h2, h3, h4, h5, h6⟩

/-- Building a block from references gives the concatenation of their texts. -/
theorem C10_new_keeps_text (sens : Sens) (cs : List CRef) (h : ∀ c ∈ cs, CRef.WF c) :
    ∃ b, Block.new sens cs = .ok b ∧ Block.ltext b = cs.flatMap CRef.ltext ∧
      b.len = (cs.map (·.length)).sum ∧ b.sens = sens ∧ Block.WF b ∧ b.Solid := by
  obtain ⟨b, h1, h2, h3, h4, h5, h6, h7⟩ := Block.new_spec (sens := sens) ((CRef.wfList_iff cs).mpr h)
  refine ⟨b, h1, ?_, h3, h4, h5, h6⟩
  rw [h2]
  clear h h1 h2 h3 h4 h5 h6 h7
  induction cs with
  | nil => rfl
  | cons c cs ih => rw [CRef.ltextList_cons, ih, List.flatMap_cons]

example : ∃ b', Example.block.simplify = .ok b' ∧ b'.text = "bx\nyab".toList ∧ b'.sens = [⟨1⟩, ⟨2⟩] := by
  obtain ⟨b', h1, h2, _, h4, _⟩ := C10_simplify_keeps_text _ Example.block_wf
  exact ⟨b', h1, by rw [Block.text, h2]; decide, h4⟩

/-! ### C11 -/

/-- Every in-bounds sequence of slices of a span works and selects the same window of its text, with locations. -/
theorem C11_slices_are_substrings (s : Span) (h : s.WF) (calls : List SliceCall)
    (hb : SliceCall.allInBounds s.ltext calls) :
    ∃ t, SliceCall.runAll s calls = .ok t ∧ t.ltext = SliceCall.onAll s.ltext calls ∧
      t.length = (SliceCall.onAll s.ltext calls).length ∧ t.parent = s.parent ∧ t.WF := by
  induction calls generalizing s with
  | nil => exact ⟨s, rfl, rfl, (ltext_length h).symm, rfl, h⟩
  | cons c cs ih =>
    obtain ⟨h1, h2⟩ := hb
    rw [ltext_length h] at h1
    have step : ∃ u, c.run s = .ok u ∧ u.ltext = c.on s.ltext ∧ u.parent = s.parent ∧ u.WF := by
      cases c with
      | «from» a => exact ⟨_, sliceFrom_eq h h1, dropS_ltext h h1, dropS_parent h h1, (dropS_good h h1).wf⟩
      | «to» b => exact ⟨_, rfl, sliceTo_ltext h1, rfl, sliceTo_wf h h1⟩
      | range a b =>
        refine ⟨_, slice_eq h h1.1 h1.2, ?_, sliceS_parent h h1.1 h1.2, (sliceS_good h h1.1 h1.2).wf⟩
        rw [sliceS_ltext h h1.1 h1.2, SliceCall.on, List.drop_take]
    obtain ⟨u, u1, u2, u3, u4⟩ := step
    obtain ⟨t, t1, t2, t3, t4, t5⟩ := ih u u4 (by rw [u2]; exact h2)
    refine ⟨t, ?_, ?_, ?_, by rw [t4, u3], t5⟩
    · simp only [SliceCall.runAll, u1, Res.ok_bind, t1]
    · rw [t2, u2]; rfl
    · rw [t3, u2]; rfl

/-- The span of a block is its whole text. -/
theorem C11_span_is_text (b : Block) (h : Block.WF b) :
    b.span.WF ∧ b.span.ltext = Block.ltext b ∧ b.span.length = (Block.ltext b).length :=
  ⟨Block.span_wf h, Block.span_ltext h, (Block.ltext_length b h).symm⟩

/-- Slicing from beyond the end panics instead of giving some other text. -/
theorem C11_out_of_bounds_panics (s : Span) (a b : Nat) :
    (s.length < a → s.sliceFrom a = .panic .underflow) ∧ (b < a → s.slice a b = .panic .underflow) := by
  constructor
  · intro h; simp [sliceFrom, usub, Nat.not_le.mpr h]
  · intro h; simp [slice, usub, Nat.not_le.mpr h]

example : ∃ t, SliceCall.runAll Example.block.span [.from 1, .range 1 4, .to 2] = .ok t ∧ t.text = "\ny".toList ∧
    t.ltext.map Prod.snd = [.source 9 6 ⟨7⟩, .source 10 1 ⟨7⟩] := by
  have h := C11_slices_are_substrings Example.block.span (Block.span_wf Example.block_wf)
    [.from 1, .range 1 4, .to 2] (by
      rw [Block.span_ltext Example.block_wf]
      refine ⟨by show _ ≤ _; decide, ⟨by decide, by decide⟩, by show _ ≤ _; decide, trivial⟩)
  obtain ⟨t, h1, h2, _⟩ := h
  rw [Block.span_ltext Example.block_wf] at h2
  exact ⟨t, h1, by rw [Span.text, h2]; decide, by rw [h2]; decide⟩

/-! ### C12 -/

/-- Full statement: copying and pushing work for every well-formed span, with the sensitivity of its block. -/
def C12_full : Prop :=
  ∀ s : Span, s.WF → (∃ b, s.toNewBlock = .ok b ∧ Block.ltext b = s.ltext ∧ b.sens = s.parent.sens) ∧
    ∀ b : Block, Block.WF b → ∃ b', b.pushAll s = .ok b' ∧ Block.ltext b' = Block.ltext b ++ s.ltext ∧
      ∀ v, v ∈ b'.sens ↔ v ∈ b.sens ∨ v ∈ s.parent.sens

/-- Copying a span gives a block with exactly its characters and locations; the sensitivity is that of the block
the span belongs to, but nothing for an empty span. -/
theorem C12_copy_partial (s : Span) (h : s.Good) :
    ∃ b, s.toNewBlock = .ok b ∧ Block.ltext b = s.ltext ∧ b.len = s.length ∧
      b.sens = (if s.length = 0 then [] else s.parent.sens) ∧ Block.WF b := by
  obtain ⟨b, h1, h2, h3, h4, h5, _⟩ := s.toNewBlock_spec h
  exact ⟨b, h1, h2, h3, h4, h5⟩

/-- Pushing a span appends exactly its characters and locations and adds its sensitivity, unless the span is empty. -/
theorem C12_push_partial (b : Block) (s : Span) (hb : Block.WF b) (h : s.Good) :
    ∃ b', b.pushAll s = .ok b' ∧ Block.ltext b' = Block.ltext b ++ s.ltext ∧ b'.len = b.len + s.length ∧
      (∀ v, v ∈ b'.sens ↔ v ∈ b.sens ∨ (s.length ≠ 0 ∧ v ∈ s.parent.sens)) ∧ Block.WF b' := by
  obtain ⟨b', h1, h2, h3, h4, h5, _⟩ := Block.pushAll_spec hb h
  refine ⟨b', h1, h2, h3, ?_, h5⟩
  intro v
  rw [h4]
  split
  · rename_i h0; simp [h0]
  · rename_i h0; simp [h0, Sens.mem_union]

example : ∃ t b, Example.flat.span.sliceFrom 1 = .ok t ∧ Example.block.pushAll t = .ok b ∧
    b.text = "bx\nyabbx\nyz".toList := by
  have hg := Block.span_good Example.flat_wf Example.flat_solid
  have h1 : (1 : Nat) ≤ Example.flat.span.length := by decide
  obtain ⟨b, h2, h3, _⟩ := C12_push_partial Example.block _ Example.block_wf (dropS_good hg.wf h1)
  refine ⟨_, b, sliceFrom_eq hg.wf h1, h2, ?_⟩
  rw [Block.text, h3, dropS_ltext hg.wf h1, Block.span_ltext Example.flat_wf]
  decide

/-- Copying and pushing panic exactly for the well-formed spans that are not empty and start at the end of the first
reference they see; this needs an empty reference, which slicing and `Block::new` (C10) do not leave at the front. -/
theorem C12_panics (s : Span) (h : s.WF) (b : Block) :
    ((∃ b', s.toNewBlock = .ok b') ↔ s.Good) ∧ ((∃ b', b.pushAll s = .ok b') ↔ s.Good) := by
  have key : (∃ cs, s.coveredRefs = .ok cs) → s.Good := by
    rintro ⟨out, h1⟩
    refine ⟨h.1, h.2.imp_right ?_⟩
    rintro ⟨c, cs, h2, _, h3⟩
    refine ⟨c, cs, h2, ?_, h3⟩
    unfold coveredRefs at h1
    rw [h2] at h1
    by_contra hc
    simp [rassert, hc] at h1
  refine ⟨⟨?_, fun hg => ?_⟩, ?_, fun hg => ?_⟩
  · rintro ⟨b', h1⟩
    unfold toNewBlock at h1
    split at h1
    · rename_i h0
      exact ⟨h.1, .inl h0⟩
    · obtain ⟨cs, h2, _⟩ := Res.bind_eq_ok.mp h1
      exact key ⟨cs, h2⟩
  · obtain ⟨b', h1, _⟩ := s.toNewBlock_spec hg
    exact ⟨b', h1⟩
  · rintro ⟨b', h1⟩
    unfold Block.pushAll at h1
    split at h1
    · rename_i h0
      exact ⟨h.1, .inl h0⟩
    · obtain ⟨cs, h2, _⟩ := Res.bind_eq_ok.mp h1
      exact key ⟨cs, h2⟩
  · obtain ⟨out, h1⟩ : ∃ out, s.length = 0 ∨ s.coveredRefs = .ok out := by
      by_cases h0 : s.length = 0
      · exact ⟨[], .inl h0⟩
      · obtain ⟨out, h1, _⟩ := s.coveredRefs_spec hg h0
        exact ⟨out, .inr h1⟩
    unfold Block.pushAll
    rcases h1 with h1 | h1
    · rw [if_pos h1]
      exact ⟨b, rfl⟩
    · split
      · exact ⟨b, rfl⟩
      · rw [h1]
        exact ⟨_, rfl⟩

/-- A block with an empty reference at the front cannot be copied. -/
example : (Block.span ⟨[], [⟨0, 0, Example.cAB⟩, ⟨0, 2, Example.cAB⟩]⟩).toNewBlock = .panic .assertion := by rfl

/-- The full statement is false: the copy of an empty part of a block does not depend on the variables the block
depends on. -/
theorem C12_refuted : ¬ C12_full := by
  intro h
  obtain ⟨⟨b, h1, _, h2⟩, _⟩ := h ⟨Example.block, 0, 0, 0⟩ ⟨Example.block_wf, .inl rfl⟩
  cases h1
  cases h2

/-! ### C13 -/

/-- Conversion to a string, iteration over characters and iteration over indexed characters all describe the text of
the block; its length is the length of the text. -/
theorem C13_views_agree (b : Block) (h : Block.WF b) :
    b.intoString = .ok b.text ∧ b.span.intoString = .ok b.text ∧ b.span.chars = ⟨b.text, false⟩ ∧
      b.len = blen b.text ∧ b.len = b.text.length := by
  refine ⟨Block.intoString_eq b h, ?_, ?_, ?_, (Block.text_length h).symm⟩
  · rw [intoString_eq (Block.span_wf h), Block.span_text h]
  · rw [chars_eq (Block.span_wf h), Block.span_text h]
  · rw [Block.text, blen_ascii (Block.ltext_ascii b h), ← Block.text_length h]; rfl

/-- The same for spans. -/
theorem C13_span_views_agree (s : Span) (h : s.WF) :
    s.intoString = .ok s.text ∧ s.chars = ⟨s.text, false⟩ ∧ s.len = blen s.text ∧ s.len = s.text.length :=
  ⟨intoString_eq h, chars_eq h, by rw [blen_ascii (ascii h), text_length h]; rfl, (text_length h).symm⟩

/-- The index attached to a character is the number of bytes before it, whatever the text. -/
theorem C13_indices_are_byte_offsets (t : Str) :
    (withIndices 0 t).map Prod.snd = t ∧
      ∀ k (hk : k < t.length), (withIndices 0 t)[k]? = some (blen (t.take k), t[k]) := by
  have hgen : ∀ (t : Str) (n : Nat), (withIndices n t).map Prod.snd = t ∧
      ∀ k (hk : k < t.length), (withIndices n t)[k]? = some (n + blen (t.take k), t[k]) := by
    intro t
    induction t with
    | nil => intro n; exact ⟨rfl, fun k hk => absurd hk (by simp)⟩
    | cons c t ih =>
      intro n
      obtain ⟨h1, h2⟩ := ih (n + c.utf8Size)
      refine ⟨by simp [withIndices, h1], ?_⟩
      intro k hk
      cases k with
      | zero => simp [withIndices]
      | succ k =>
        simp only [withIndices, List.getElem?_cons_succ, List.take_succ_cons, blen_cons, List.getElem_cons_succ]
        rw [h2 k (by simpa using hk), Nat.add_assoc]
  obtain ⟨h1, h2⟩ := hgen t 0
  exact ⟨h1, fun k hk => by rw [h2 k hk, Nat.zero_add]⟩

example : Example.block.intoString = .ok "bx\nyab".toList ∧ Example.block.len = 6 :=
  ⟨by rw [(C13_views_agree _ Example.block_wf).1]; decide, by decide⟩

/-! ### C14 -/

/-- Searching a span for a non-empty ASCII string returns the position of the first occurrence, and nothing exactly
when there is none. -/
theorem C14_find_first (s : Span) (h : s.WF) (needle : Str) (ha : AsciiS needle) (h0 : needle ≠ []) :
    (∀ k, s.findSubstring needle = .ok (some k) ↔ FirstAt needle s.text k) ∧
      (s.findSubstring needle = .ok none ↔ ¬ Occurs needle s.text) ∧
      ∃ r, s.findSubstring needle = .ok r := by
  rw [findSubstring_eq h ha h0]
  refine ⟨fun k => ?_, ?_, _, rfl⟩
  · rw [Res.ok.injEq]; exact firstOcc_some
  · rw [Res.ok.injEq]; exact firstOcc_none

example : Example.block.span.findSubstring "ya".toList = .ok (some 3) ∧
    Example.block.span.findSubstring "yb".toList = .ok none := by
  have hw := Block.span_wf Example.block_wf
  have ht : Example.block.span.text = "bx\nyab".toList := by rw [Block.span_text Example.block_wf]; decide
  constructor
  · rw [findSubstring_eq hw (by unfold AsciiS; decide) (by decide), ht]; decide
  · rw [findSubstring_eq hw (by unfold AsciiS; decide) (by decide), ht]; decide

/-! ### C15 -/

/-- Comparing a span with a string: success exactly when the string is a prefix of the text, 'incomplete' exactly
when the text is a proper prefix of the string, an error otherwise. -/
theorem C15_compare (s : Span) (h : s.WF) (t : Str) :
    (s.compare t = .ok .ok ↔ t <+: s.text) ∧
      (s.compare t = .ok .incomplete ↔ s.text <+: t ∧ s.text ≠ t) ∧
      (s.compare t = .ok .error ↔ ¬ t <+: s.text ∧ ¬ s.text <+: t) := by
  have key : ∀ a b : Str, a <+: b → b <+: a → a = b :=
    fun a b h1 h2 => h1.eq_of_length_le h2.length_le
  rcases compare_eq h t with ⟨h1, h2⟩ | ⟨h1, h2, h3⟩ | ⟨h1, h2, h3⟩
  · rw [h2]
    refine ⟨by simp [h1], ⟨by simp, fun ⟨a, b⟩ => absurd (key _ _ a h1) b⟩, by simp [h1]⟩
  · rw [h3]
    refine ⟨⟨by simp, fun a => absurd (key _ _ h1 a) h2⟩, by simp [h1, h2], by simp [h1]⟩
  · rw [h3]
    refine ⟨by simp [h1], by simp [h2], by simp [h1, h2]⟩

/-- The same up to ASCII case. -/
theorem C15_compare_no_case (s : Span) (h : s.WF) (t : Str) :
    (s.compareNoCase t = .ok .ok ↔ t.map lower <+: s.text.map lower) ∧
      (s.compareNoCase t = .ok .incomplete ↔
        s.text.map lower <+: t.map lower ∧ s.text.map lower ≠ t.map lower) ∧
      (s.compareNoCase t = .ok .error ↔
        ¬ t.map lower <+: s.text.map lower ∧ ¬ s.text.map lower <+: t.map lower) := by
  have key : ∀ a b : Str, a <+: b → b <+: a → a = b :=
    fun a b h1 h2 => h1.eq_of_length_le h2.length_le
  rcases compareNoCase_eq h t with ⟨h1, h2⟩ | ⟨h1, h2, h3⟩ | ⟨h1, h2, h3⟩
  · rw [h2]
    refine ⟨by simp [h1], ⟨by simp, fun ⟨a, b⟩ => absurd (key _ _ a h1) b⟩, by simp [h1]⟩
  · rw [h3]
    refine ⟨⟨by simp, fun a => absurd (key _ _ h1 a) h2⟩, by simp [h1, h2], by simp [h1]⟩
  · rw [h3]
    refine ⟨by simp [h1], by simp [h2], by simp [h1, h2]⟩

/-- `lower` maps exactly the letters A-Z to a-z. -/
theorem C15_lower_is_ascii_case (c : Char) :
    lower c = if 'A' ≤ c ∧ c ≤ 'Z' then Char.ofNat (c.toNat + 32) else c := by
  unfold lower
  have h1 : ('A' ≤ c) ↔ 65 ≤ c.toNat := Iff.rfl
  have h2 : (c ≤ 'Z') ↔ c.toNat ≤ 90 := Iff.rfl
  simp only [h1, h2, Bool.and_eq_true, decide_eq_true_eq]

example : Example.block.span.compare "bx".toList = .ok .ok ∧ Example.block.span.compareNoCase "BX".toList = .ok .ok ∧
    Example.block.span.compare "BX".toList = .ok .error := by
  have hw := Block.span_wf Example.block_wf
  have ht : Example.block.span.text = "bx\nyab".toList := by rw [Block.span_text Example.block_wf]; decide
  refine ⟨(C15_compare _ hw _).1.mpr (by rw [ht]; decide), (C15_compare_no_case _ hw _).1.mpr (by rw [ht]; decide),
    (C15_compare _ hw _).2.2.mpr (by rw [ht]; decide)⟩

/-! ### C16 -/

/-- Splitting after a number of characters. -/
theorem C16_split_at (s : Span) (h : s.WF) (n : Nat) (hn : n ≤ s.length) :
    ∃ rest pre, s.takeSplit n = .ok (rest, pre) ∧ pre.ltext ++ rest.ltext = s.ltext ∧ pre.length = n ∧
      pre.ltext.length = n ∧ rest.WF ∧ pre.WF := by
  refine ⟨_, _, takeSplit_eq h hn, ?_, rfl, ?_, (dropS_good h hn).wf, sliceTo_wf h hn⟩
  · rw [sliceTo_ltext hn, dropS_ltext h hn, List.take_append_drop]
  · rw [ltext_length (sliceTo_wf h hn)]; rfl

/-- Splitting at the first character that satisfies a predicate: the parts make up the text, the first part has no
such character, and the second part, if not empty, begins with one. -/
theorem C16_split_at_predicate (s : Span) (h : s.WF) (p : Char → Bool) :
    ∃ rest pre, s.splitAtPosition p = .ok (rest, pre) ∧ pre.ltext ++ rest.ltext = s.ltext ∧
      (∀ c ∈ pre.text, p c = false) ∧ (∀ c, rest.text.head? = some c → p c = true) ∧ rest.WF ∧ pre.WF := by
  have hle : stopIdx p s.text ≤ s.length := by rw [← text_length h]; exact stopIdx_le p s.text
  refine ⟨_, _, splitAtPosition_eq h p, ?_, ?_, ?_, (restAt_good h _).wf, sliceTo_wf h hle⟩
  · rw [sliceTo_ltext hle, restAt_ltext h, List.take_append_drop]
  · intro c hc
    rw [sliceTo_text hle, take_stopIdx] at hc
    have hall : (s.text.takeWhile (fun c => !p c)).all (fun c => !p c) = true := List.all_takeWhile
    have := List.all_eq_true.mp hall c hc
    simpa using this
  · intro c hc
    have : (s.restAt (stopIdx p s.text)).text = s.text.drop (stopIdx p s.text) := by
      rw [text, restAt_ltext h, textOf, List.map_drop]; rfl
    rw [this, drop_stopIdx] at hc
    have := List.head?_dropWhile_not (fun c => !p c) s.text
    rw [hc] at this
    simpa using this

example : ∃ r p, Example.block.span.splitAtPosition (· == '\n') = .ok (r, p) ∧ p.text = "bx".toList ∧ r.text = "\nyab".toList := by
  have hw := Block.span_wf Example.block_wf
  have ht : Example.block.span.text = "bx\nyab".toList := by rw [Block.span_text Example.block_wf]; decide
  obtain ⟨r, p, h1, h2, h3, h4, _⟩ := C16_split_at_predicate _ hw (· == '\n')
  refine ⟨_, _, splitAtPosition_eq hw _, ?_, ?_⟩
  · rw [sliceTo_text (by rw [ht]; decide), ht]; decide
  · rw [text, restAt_ltext hw, textOf, List.map_drop]; show List.drop _ Example.block.span.text = _; rw [ht]; decide

/-! ### C17 -/

/-- Full statement: iterating the segments of a span never panics and tiles the text. -/
def C17_full : Prop :=
  ∀ s : Span, s.Good → ∃ ts, s.allSegments = .ok ts ∧ ts.flatMap LStr.ltext = s.ltext

/-- What the code does in general: whenever the iteration completes, the segments tile the text, with the right
locations, and no segment is empty. -/
theorem C17_segments_tile_partial (s : Span) (h : Block.WF s.parent) (ts : List LStr) (hs : s.allSegments = .ok ts) :
    ts.flatMap LStr.ltext = s.ltext ∧ ∀ t ∈ ts, t.contents ≠ [] := by
  obtain ⟨h1, h2, h3, h4⟩ := Span.segments_of h (s := s)
  simp only [Span.allSegments] at hs
  split at hs
  · cases hs
  · rename_i hc
    simp only [Res.ok.injEq] at hs
    subst hs
    exact ⟨h4 (by simpa using hc), h2⟩

/-- The iteration completes when no node of the block wraps more than one reference, and then the location of the
span is that of its first character. -/
theorem C17_segments_complete_partial (s : Span) (h : s.Good) (hm : Block.Mono s.parent) :
    (∃ ts, s.allSegments = .ok ts ∧ ts.flatMap LStr.ltext = s.ltext) ∧
      s.location = .ok (s.ltext.head?.map Prod.snd) := by
  obtain ⟨ts, h1, h2, _⟩ := Span.allSegments_mono h hm
  exact ⟨⟨ts, h1, h2⟩, Span.location_mono h hm⟩

/-- The full statement is false: a reference that starts at the end of the first of two wrapped segments makes the
iteration panic. -/
theorem C17_refuted : ¬ C17_full := by
  intro h
  have hw : Block.WF ⟨[], [⟨2, 3, Example.inner⟩]⟩ := by
    have h1 : AsciiS "ab".toList := by unfold AsciiS; decide
    have h2 : AsciiS "x\nyz".toList := by unfold AsciiS; decide
    exact ⟨⟨by decide, ⟨⟨by decide, h1⟩, ⟨by decide, h2⟩, trivial⟩⟩, trivial⟩
  obtain ⟨ts, h1, _⟩ := h (Block.span ⟨[], [⟨2, 3, Example.inner⟩]⟩)
    (Block.span_good hw (by intro c hc; rw [List.mem_singleton.mp hc]; decide))
  have : (Block.span ⟨[], [⟨2, 3, Example.inner⟩]⟩).allSegments = .panic .assertion := by decide
  rw [this] at h1
  cases h1

example : Example.flat.span.allSegments =
    .ok [⟨.source 3 1 ⟨7⟩, "ab".toList⟩, ⟨.source 9 5 ⟨7⟩, "x\nyz".toList⟩] := by decide

/-! ### C18 -/

/-- Full statement: the offset of a tail is the number of bytes skipped. -/
def C18_full : Prop :=
  ∀ (s : Span) (n : Nat) (t : Span), s.Good → s.sliceFrom n = .ok t → s.offsetTo t = .ok n

/-- What the code computes: the number of skipped bytes, less the position inside the reference the tail starts in
when that is not the reference the span starts in. -/
theorem C18_offset_exact_partial (s : Span) (h : s.Good) (n : Nat) (t : Span) (ht : s.sliceFrom n = .ok t) :
    s.offsetTo t = .ok (if t.start = s.start then n else n - t.offset) := by
  have hn : n ≤ s.length := by
    by_contra hc
    rw [(C11_out_of_bounds_panics s n 0).1 (by omega)] at ht
    cases ht
  have := (offsetTo_dropS h hn).1
  rw [sliceFrom_eq h.wf hn, Res.ok.injEq] at ht
  rw [ht] at this
  exact this

/-- So it is right for spans of a block with a single reference. -/
theorem C18_offset_single_partial (s : Span) (h : s.Good) (hp : s.parent.content.length ≤ 1) (n : Nat) (t : Span)
    (ht : s.sliceFrom n = .ok t) (hn : n < s.length) : s.offsetTo t = .ok n := by
  rw [C18_offset_exact_partial s h n t ht]
  have he := sliceFrom_eq h.wf (Nat.le_of_lt hn)
  rw [he, Res.ok.injEq] at ht
  have h1 := dropS_good h.wf (Nat.le_of_lt hn)
  have hl := dropS_length h.wf (Nat.le_of_lt hn)
  have hpar := dropS_parent h.wf (Nat.le_of_lt hn)
  obtain ⟨c, cs, e1, _⟩ := h1.2.resolve_left (by omega)
  obtain ⟨d, ds, f1, _⟩ := h.2.resolve_left (by omega)
  have l1 := congrArg List.length e1
  have l2 := congrArg List.length f1
  rw [contents, List.length_drop, hpar] at l1
  rw [contents, List.length_drop] at l2
  simp only [List.length_cons] at l1 l2
  rw [← ht, if_pos (by omega)]

/-- The offset to the empty rest that parsers leave when they take everything is the length of the span, if the span
reaches to the end of the block; in general it is the length of what the block has from the beginning of the span. -/
theorem C18_offset_to_end_partial (s : Span) (h : s.Good) (h0 : s.length ≠ 0) :
    s.offsetTo s.emptyAtEnd = .ok (lensum s.contents - s.offset) ∧
      (s.offset + s.length = lensum s.contents → s.offsetTo s.emptyAtEnd = .ok s.length) := by
  obtain ⟨c, cs, e1, e2, e3⟩ := h.2.resolve_left h0
  have hl : s.contents.length = s.parent.content.length - s.start := by rw [contents, List.length_drop]
  rw [e1] at hl
  simp only [List.length_cons] at hl
  have key : s.offsetTo s.emptyAtEnd = .ok (lensum s.contents - s.offset) := by
    have he : s.emptyAtEnd.start = s.parent.content.length := rfl
    generalize s.emptyAtEnd = r at he
    simp only [offsetTo]
    rw [rassert_of (by simp; omega), Res.ok_bind, rassert_of (by simp [e1]; omega), Res.ok_bind, if_neg (by omega), e1]
    simp only
    rw [usub_of_le (by omega), Res.ok_bind, walkLengths_eq, List.take_of_length_le (by omega), lensum_cons]
    simp only [Res.pure_eq, Res.ok.injEq]
    omega
  exact ⟨key, fun he => by rw [key, ← he]; congr 1; omega⟩

example : Example.flat.span.offsetTo Example.flat.span.emptyAtEnd = .ok Example.flat.len := by decide

/-- The full statement is false. -/
theorem C18_refuted : ¬ C18_full := by
  intro h
  have := h Example.flat.span 3 ⟨Example.flat, 1, 1, 3⟩ (Block.span_good Example.flat_wf Example.flat_solid) rfl
  have h2 : Example.flat.span.offsetTo ⟨Example.flat, 1, 1, 3⟩ = .ok 2 := by decide
  rw [h2] at this
  cases this

/-! ### C19 -/

/-- Full statement (for the simplest block): slicing at the boundary between `p` and `q` yields `q`. -/
def C19_full : Prop :=
  ∀ (loc : Location) (p q : Str), ∃ t, (textBlock loc (p ++ q)).span.sliceFrom (blen p) = .ok t ∧ t.chars = ⟨q, false⟩

theorem limitBytes_all (q : Str) (crash : Bool) : limitBytes (blen q) q crash = ⟨q, false⟩ := by
  induction q with
  | nil => simp [limitBytes]
  | cons c q ih =>
    have hp := utf8Size_pos c
    obtain ⟨k, hk⟩ : ∃ k, blen (c :: q) = k + 1 := ⟨blen (c :: q) - 1, by simp; omega⟩
    have hk' : c.utf8Size + blen q = k + 1 := by simpa using hk
    rw [hk, limitBytes, if_pos (by omega), show k + 1 - c.utf8Size = blen q by omega, ih]

theorem limitBytes_short (q : Str) (crash : Bool) (n : Nat) (h : blen q < n) : limitBytes n q crash = ⟨q, crash⟩ := by
  induction q generalizing n with
  | nil =>
    obtain ⟨k, rfl⟩ : ∃ k, n = k + 1 := ⟨n - 1, by omega⟩
    rfl
  | cons c q ih =>
    have hp := utf8Size_pos c
    have h' : c.utf8Size + blen q < n := by simpa using h
    obtain ⟨k, rfl⟩ : ∃ k, n = k + 1 := ⟨n - 1, by omega⟩
    rw [limitBytes, if_pos (by omega), ih _ (by omega)]

/-- What the code does: from the text after the boundary it drops one character for every byte that the skipped text
has in excess of its characters. -/
theorem C19_exact (loc : Location) (p q : Str) :
    ∃ t, (textBlock loc (p ++ q)).span.sliceFrom (blen p) = .ok t ∧ t.length = blen q ∧
      t.chars = ⟨q.drop (blen p - p.length), false⟩ := by
  have hlen : (textBlock loc (p ++ q)).span.length = blen p + blen q := by
    simp [textBlock, Block.len, CRef.ofNode, Node.len, LStr.len]
  have hbl := blen_ge
  by_cases hq : blen q = 0
  · have : q = [] := by
      by_contra hc
      have := blen_pos.mpr hc; omega
    subst this
    refine ⟨{ (textBlock loc (p ++ [])).span with offset := 0 + blen p, length := 0 }, ?_, rfl, ?_⟩
    · simp only [sliceFrom, hlen, usub_of_le (Nat.le_add_right _ _), Res.ok_bind, revalidate]
      simp [Block.span]
    · simp [Span.chars, textBlock, Span.contents, Block.span, limitBytes]
  · refine ⟨{ (textBlock loc (p ++ q)).span with offset := blen p, length := blen q }, ?_, rfl, ?_⟩
    · simp only [sliceFrom, hlen, usub_of_le (Nat.le_add_right _ _), Res.ok_bind, revalidate]
      have h2 : ¬ (blen p + blen q ≤ blen p) := by omega
      simp [Block.span, textBlock, Span.contents, revalLoop, CRef.ofNode, Node.len, LStr.len, h2, hq]
    · simp only [Span.chars, textBlock, Span.contents, Block.span, List.drop_zero, CRef.ofNode, CRef.chars, refChars,
        Node.chars, CStream.skip, CRef.charsList]
      have hcs : (CStream.take ⟨p ++ q, false⟩ (Node.constant ⟨loc, p ++ q⟩).len).crash = false := by
        unfold CStream.take; split <;> rfl
      have hit : (CStream.take ⟨p ++ q, false⟩ (Node.constant ⟨loc, p ++ q⟩).len).items = p ++ q := by
        unfold CStream.take
        split
        · apply List.take_of_length_le
          simp only [Node.len, LStr.len]
          exact hbl _
        · rfl
      simp only [CStream.append, hcs, hit, Bool.false_eq_true, if_false, List.append_nil]
      rw [List.drop_append, List.drop_of_length_le (hbl p), List.nil_append]
      have hd : blen (q.drop (blen p - p.length)) + blen (q.take (blen p - p.length)) = blen q := by
        conv_rhs => rw [← List.take_append_drop (blen p - p.length) q, blen_append]
        omega
      rcases Nat.lt_or_ge (blen (q.drop (blen p - p.length))) (blen q) with h | h
      · exact limitBytes_short _ _ _ h
      · rw [show blen q = blen (q.drop (blen p - p.length)) by omega]
        exact limitBytes_all _ _

theorem ascii_of_size {c : Char} (h : c.utf8Size ≤ 1) : isAscii c = true := by
  unfold Char.utf8Size at h
  dsimp only at h
  split at h
  · rename_i h1
    simp only [isAscii, decide_eq_true_eq]
    have : c.val.toNat ≤ 127 := h1
    exact Nat.lt_succ_of_le this
  · split at h
    · omega
    · split at h <;> omega

theorem ascii_of_blen {p : Str} (h : blen p ≤ p.length) : AsciiS p := by
  induction p with
  | nil => intro c hc; cases hc
  | cons c p ih =>
    have h1 := utf8Size_pos c
    have h2 := blen_ge p
    simp only [blen_cons, List.length_cons] at h
    intro d hd
    rcases List.mem_cons.mp hd with rfl | hd
    · exact ascii_of_size (by omega)
    · exact ih (by omega) d hd

/-- So it holds exactly when the skipped text is ASCII or nothing follows. -/
theorem C19_holds_iff (loc : Location) (p q : Str) :
    (∃ t, (textBlock loc (p ++ q)).span.sliceFrom (blen p) = .ok t ∧ t.chars = ⟨q, false⟩) ↔ AsciiS p ∨ q = [] := by
  obtain ⟨t, h1, _, h2⟩ := C19_exact loc p q
  have hbl := blen_ge p
  constructor
  · rintro ⟨t', h3, h4⟩
    rw [h1] at h3
    cases h3
    rw [h2] at h4
    have h5 : (q.drop (blen p - p.length)).length = q.length := by rw [(CStream.mk.inj h4).1]
    rw [List.length_drop] at h5
    by_cases hq : q = []
    · exact .inr hq
    · have := List.length_pos_iff.mpr hq
      exact .inl (ascii_of_blen (by omega))
  · rintro (h | rfl)
    · exact ⟨t, h1, by rw [h2, blen_ascii h]; simp⟩
    · exact ⟨t, h1, by rw [h2]; simp⟩

/-- It holds when the skipped text is ASCII, whatever follows. -/
theorem C19_ascii_prefix_partial (loc : Location) (p q : Str) (hp : AsciiS p) :
    ∃ t, (textBlock loc (p ++ q)).span.sliceFrom (blen p) = .ok t ∧ t.chars = ⟨q, false⟩ :=
  (C19_holds_iff loc p q).mpr (.inl hp)

/-- The full statement is false: a two-byte character before the boundary makes the slice lose a character. -/
theorem C19_refuted : ¬ C19_full := by
  intro h
  obtain ⟨t, h1, h2⟩ := h .synthetic "é".toList "ab".toList
  have h3 : (textBlock .synthetic ("é".toList ++ "ab".toList)).span.sliceFrom (blen "é".toList) =
      .ok ⟨textBlock .synthetic ("é".toList ++ "ab".toList), 0, 2, 2⟩ := rfl
  rw [h3, Res.ok.injEq] at h1
  subst h1
  revert h2
  decide

end Hastur
