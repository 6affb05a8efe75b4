import Verif.Proofs.SegmentsExact
import Verif.Props.Blocks
/-
Property C17, exactly: when iterating the segments of a span panics.
-/
namespace Hastur
open Span

/-- Iterating the segments of a span completes, and then tiles the text, exactly when neither the span nor any
reference that is read on the way starts where a piece of the text it looks into ends. -/
theorem C17_exact (s : Span) (h : s.Good) :
    (∃ ts, s.allSegments = .ok ts ∧ ts.flatMap LStr.ltext = s.ltext) ↔
      s.length = 0 ∨ (¬ (0 < s.offset ∧ PieceEnd s.contents s.offset) ∧
        ∀ c, Visits s.contents (s.offset + s.length) c → ¬ StartsAtEnd c) := by
  by_cases h0 : s.length = 0
  · simp only [h0, true_or, iff_true]
    refine ⟨[], by simp [Span.allSegments, Span.segments_nil h0], ?_⟩
    have := Span.ltext_length h.wf
    rw [h0, List.length_eq_zero_iff] at this
    simp [this]
  · have hb := Span.segments_behaves h (by omega)
    have hp := hb.panics s.length (by omega) (Nat.le_refl _)
    rw [Nat.min_self] at hp
    simp only [h0, false_or]
    constructor
    · rintro ⟨ts, h1, _⟩
      have hc : s.segments.crash = false := by
        simp only [Span.allSegments] at h1
        split at h1
        · cases h1
        · rename_i hc; simpa using hc
      have hn : ¬ _ := fun hx => Bool.false_ne_true (hc.symm.trans (hp.mp hx).1)
      exact ⟨fun hx => hn (.inl hx), fun c hv hs => hn (.inr ⟨c, hv, hs⟩)⟩
    · rintro ⟨h1, h2⟩
      have hc : s.segments.crash = false := by
        cases hc : s.segments.crash with
        | false => rfl
        | true =>
          rcases hp.mpr ⟨hc, hb.short hc⟩ with hx | ⟨c, hv, hs⟩
          · exact absurd hx h1
          · exact absurd hs (h2 c hv)
      obtain ⟨ts, g1, g2, _⟩ := Span.allSegments_whole h hc
      exact ⟨ts, g1, g2⟩

/-- Likewise for the location of a span, which asks for the first segment only: so only the references read to get
one byte count. -/
theorem C17_location_exact (s : Span) (h : s.Good) :
    s.location = .ok (s.ltext.head?.map Prod.snd) ↔
      s.length = 0 ∨ (¬ (0 < s.offset ∧ PieceEnd s.contents s.offset) ∧
        ∀ c, Visits s.contents (s.offset + 1) c → ¬ StartsAtEnd c) := by
  by_cases h0 : s.length = 0
  · simp only [h0, true_or, iff_true]
    have := Span.ltext_length h.wf
    rw [h0, List.length_eq_zero_iff] at this
    simp [Span.location, Span.firstSegment, Span.segments_nil h0, this]
  · have hb := Span.segments_behaves h (by omega)
    have hp := hb.panics 1 (by omega) (by omega)
    rw [show min 1 s.length = 1 by omega] at hp
    simp only [h0, false_or]
    obtain ⟨g1, g2, ⟨q, hq⟩, g4⟩ := Span.segments_of h.1 (s := s)
    cases hs : s.segments with
    | mk items crash =>
      rw [hs] at hp g1 g2 hq g4 hb
      cases items with
      | nil =>
        have hc : crash = true := by
          cases crash with
          | true => rfl
          | false => have := hb.whole rfl; simp at this; omega
        subst hc
        have := hp.mpr (by simp)
        simp only [Span.location, Span.firstSegment, hs]
        constructor
        · intro hx; cases hx
        · rintro ⟨h1, h2⟩
          rcases this with hx | ⟨c, hv, hs⟩
          · exact absurd hx h1
          · exact absurd hs (h2 c hv)
      | cons t ts =>
        have ht : t.contents ≠ [] := g2 t (by simp)
        have hpos : 0 < t.contents.length := List.length_pos_iff.mpr ht
        have hn : ∀ hx, False := fun hx => by
          have := (hp.mp hx).2
          simp only [segLens_cons, List.sum_cons] at this
          omega
        have hl : s.location = .ok (s.ltext.head?.map Prod.snd) := by
          simp only [Span.location, Span.firstSegment, hs]
          rw [← hq]
          rcases t with ⟨loc, contents⟩
          cases contents with
          | nil => exact absurd rfl ht
          | cons c cs => simp [LStr.ltext, locate]
        simp only [hl, true_iff]
        exact ⟨fun hx => hn (.inl hx), fun c hv hs => hn (.inr ⟨c, hv, hs⟩)⟩

/-- A block that looks into two wrapped pieces from the middle of the first: its segments can be listed. -/
example : Example.block.span.allSegments =
    .ok [⟨.source 3 2 ⟨7⟩, "b".toList⟩, ⟨.source 9 5 ⟨7⟩, "x\ny".toList⟩, ⟨.source 3 1 ⟨7⟩, "ab".toList⟩] := by decide

/-- So no reference it reads starts where a piece ends. -/
example (c : CRef) (hv : Visits Example.block.span.contents 6 c) : ¬ StartsAtEnd c := by
  have hg : Example.block.span.Good := by
    refine ⟨Example.block_wf, .inr ⟨⟨1, 4, Example.inner⟩, _, rfl, by decide, by decide⟩⟩
  have ht : ∃ ts, Example.block.span.allSegments = .ok ts ∧ ts.flatMap LStr.ltext = Example.block.span.ltext :=
    ⟨_, rfl, by decide⟩
  rcases (C17_exact _ hg).mp ht with h | ⟨_, h⟩
  · exact absurd h (by decide)
  · exact h c hv

/-- Looking into the same pieces from the end of the first panics, as a reference that starts there is read. -/
example : Visits [⟨2, 3, Example.inner⟩] 3 ⟨2, 3, Example.inner⟩ ∧ StartsAtEnd ⟨2, 3, Example.inner⟩ :=
  ⟨.here (by decide) (by decide), by decide, _, .concat, .here (by decide)⟩

example : (Block.span ⟨[], [⟨2, 3, Example.inner⟩]⟩).location = .panic .assertion := by decide

/-- The location is found as long as the panic comes later. -/
example : (Block.span ⟨[], [⟨0, 2, Example.cAB⟩, ⟨2, 3, Example.inner⟩]⟩).location = .ok (some (.source 3 1 ⟨7⟩)) ∧
    (Block.span ⟨[], [⟨0, 2, Example.cAB⟩, ⟨2, 3, Example.inner⟩]⟩).allSegments = .panic .assertion := by decide

end Hastur
