import Verif.Spec.NoAbort
import Verif.Proofs.Total
import Verif.Proofs.Driver
import Verif.Proofs.FileNames
/-
Property C85: the parsers do not abort on the text of a file.
-/
namespace Hastur

open Res Span

private theorem returns_of {α : Type} {P : Block} {Q : α → Prop} {R : Span → α → Prop} {x : PRes α} (h : Calm P Q x)
    (hs : x.SatP R) : HasResult x := by
  match x with
  | .ok a => exact ⟨a, rfl⟩
  | .panic k => exact absurd rfl (h.1 k)
  | .fuel => exact absurd rfl hs.1

private theorem rest_in {f : FileName} {s : Str} {n : Nat} {i : Span} (hs : AsciiS s) (hn : n ≤ s.length)
    (h : RestOfFile f s n i) :
    ∃ P, P.content.length ≤ 1 ∧ Block.Mono P ∧ i.At P ((locate (.source 1 1 f) s).drop n) := by
  obtain ⟨b, h1, h2⟩ := h
  obtain ⟨b', e1, e2, e3, e4⟩ := fileBlock_spec (f := f) hs
  cases h1.symm.trans e1
  obtain ⟨j, g1, g2⟩ := e4.sliceFrom (n := n) (by rw [locate_length]; exact hn)
  cases h2.symm.trans g1
  exact ⟨b, e2, e3, g2⟩

private theorem text_rest (l : Location) (s : Str) (n : Nat) : textOf ((locate l s).drop n) = s.drop n := by
  rw [textOf_drop, show textOf (locate l s) = s from locate_fst l s]

/-- Every place in a file is there (so the statements below are not empty). -/
theorem C85_places (f : FileName) (s : Str) (hs : AsciiS s) (n : Nat) (hn : n ≤ s.length) : ∃ i, RestOfFile f s n i := by
  obtain ⟨b, e1, _, _, e4⟩ := fileBlock_spec (f := f) hs
  obtain ⟨j, g1, _⟩ := e4.sliceFrom (n := n) (by rw [locate_length]; exact hn)
  exact ⟨j, b, e1, g1⟩

/-- **Physical lines**: at every place of a file of ASCII text, the parsers of comments, of recipe lines and of logical
lines return, for every ASCII command character and both ways to join lines. -/
theorem C85_physical_lines (f : FileName) (s : Str) (hs : AsciiS s) (n : Nat) (hn : n ≤ s.length) (i : Span)
    (h : RestOfFile f s n i) (c : Char) (hc : isAscii c = true) (mode : Compliance) (strip : Bool) :
    HasResult (parseComment i) ∧ HasResult (recipeLine c i) ∧ HasResult (makefileLine i mode strip) := by
  obtain ⟨P, h1, h2, h3⟩ := rest_in hs hn h
  refine ⟨?_, returns_of (calm_recipeLine hc h1 h2 ⟨_, h3⟩) (recipeLine_sat c i), ?_⟩
  · by_cases hh : (textOf ((locate (.source 1 1 f) s).drop n)).head? = some '#'
    · obtain ⟨l, u, e⟩ : ∃ l u, (locate (.source 1 1 f) s).drop n = ('#', l) :: u := by
        cases hd : (locate (.source 1 1 f) s).drop n with
        | nil => rw [hd] at hh; cases hh
        | cons x u =>
          rw [hd] at hh
          obtain ⟨d, l⟩ := x
          simp only [textOf_cons, List.head?_cons, Option.some.injEq] at hh
          exact ⟨l, u, by rw [hh]⟩
      obtain ⟨r, _, e', _⟩ := (parseComment_total h3).1 l u e
      exact ⟨_, e'⟩
    · exact ⟨_, (parseComment_total h3).2 hh⟩
  · obtain ⟨r, _, b, _, e, _⟩ := makefileLine_total (mode := mode) (strip := strip) h3
    exact ⟨_, e⟩

/-- **Lines of definitions**: at every place of a file where a line of a definition can begin, that is, before the end
and not before a comment character, the parser of such lines returns. -/
theorem C85_define_lines (f : FileName) (s : Str) (hs : AsciiS s) (n : Nat) (hn : n < s.length) (i : Span)
    (h : RestOfFile f s n i) (hh : (s.drop n).head? ≠ some '#') : HasResult (parseDefineLine i) := by
  obtain ⟨P, h1, h2, h3⟩ := rest_in hs (Nat.le_of_lt hn) h
  have hl : ((locate (.source 1 1 f) s).drop n).length = s.length - n := by rw [List.length_drop, locate_length]
  have h0 : (locate (.source 1 1 f) s).drop n ≠ [] := by
    intro e
    rw [e] at hl
    simp at hl
    omega
  refine returns_of (calm_parseDefineLine h1 h2 h3 h0 (by rw [text_rest]; exact hh)) (parseDefineLine_sat ?_)
  rw [h3.length, hl]
  omega

/-- **Why not before a comment character**: there, and at the end of a file, the parser of lines of definitions aborts.
(The caller looks for the end and for comments first.) -/
theorem C85_define_comment (f : FileName) (s : Str) (hs : AsciiS s) (n : Nat) (hn : n ≤ s.length) (i : Span)
    (h : RestOfFile f s n i) (hh : s.drop n = [] ∨ (s.drop n).head? = some '#') : parseDefineLine i = .panic .unwrap := by
  obtain ⟨P, h1, h2, h3⟩ := rest_in hs hn h
  have key : ∃ r l, grabDefineLine i = .ok (.done r l) ∧ l.At P [] := by
    have ht := text_rest (.source 1 1 f) s n
    cases hd : (locate (.source 1 1 f) s).drop n with
    | nil =>
      rw [hd] at h3
      obtain ⟨r, e1, _⟩ := (grabDefineLine_at h3).2.2 nofun nofun
      exact ⟨r, i, e1, h3⟩
    | cons x u =>
      rw [hd, textOf_cons] at ht
      rw [← ht] at hh
      rcases hh with hh | hh
      · cases hh
      · obtain ⟨d, l⟩ := x
        simp only [List.head?_cons, Option.some.injEq] at hh
        subst hh
        rw [hd] at h3
        obtain ⟨r, l', e1, _, e3⟩ := (grabDefineLine_at h3).1 [] l u rfl nofun
        exact ⟨r, l', e1, e3⟩
  obtain ⟨r, l, e1, e2⟩ := key
  have hloc := Span.location_mono e2.good (by rw [e2.parent]; exact h2)
  rw [e2.ltext] at hloc
  unfold parseDefineLine
  simp only [e1, done_andThen, hloc, List.head?_nil, Option.map_none, runwrap, ok_bind]
  rfl

/-- **Logical lines**: in the logical line read at any place of a file of ASCII text, from any of its characters on, the
parsers of expressions, conditionals, directives, words of target lines and file names return. -/
theorem C85_logical_lines (f : FileName) (s : Str) (hs : AsciiS s) (n : Nat) (hn : n ≤ s.length) (i : Span)
    (h : RestOfFile f s n i) (mode : Compliance) (strip : Bool) (r : Span) (b : Block)
    (hb : makefileLine i mode strip = .ok (.done r b)) (k : Nat) (hk : k ≤ b.len) :
    ∃ j, b.span.sliceFrom k = .ok j ∧ HasResult (parseAst j) ∧ HasResult (parseConditionalLine j) ∧
      HasResult (parseDirectiveLine j) ∧ HasResult (nextMword j) ∧
      ∀ stops : Str, '\\' ∉ stops → HasResult (parseFileSeq stops j) := by
  obtain ⟨P, h1, h2, h3⟩ := rest_in hs hn h
  obtain ⟨r', _, b', u, e, _, _, hl, _⟩ := makefileLine_total (mode := mode) (strip := strip) h3
  cases hb.symm.trans e
  have hm := hl.mono h1 h2
  obtain ⟨j, g1, g2⟩ := hl.at.sliceFrom (n := k) (by rw [← hl.at.length]; exact hk)
  refine ⟨j, g1, returns_of (calm_parseAst hm ⟨_, g2⟩) (parseAst_sat j),
    returns_of (calm_parseCondF hm _ ⟨_, g2⟩) (parseConditionalLine_sat j),
    returns_of (calm_parseDirectiveLine hm ⟨_, g2⟩) (parseDirectiveLine_sat j),
    returns_of (calm_nextMword ⟨_, g2⟩) (nextMword_sat j), fun stops hst => ?_⟩
  obtain ⟨bs, _, e', _⟩ := parseFileSeq_escaped stops (by simpa using hst) g2
  exact ⟨bs, e'⟩

/-- The hypotheses are met: the second line of a file with an unclosed reference and odd brackets. -/
example : ∃ i, RestOfFile ⟨0⟩ "a\n\tifeq ($(word ,\\\n)\\".toList 2 i ∧ HasResult (recipeLine '\t' i) ∧
    HasResult (parseDefineLine i) ∧ ∃ r b, makefileLine i .gnu true = .ok (.done r b) ∧ HasResult (parseConditionalLine b.span) := by
  have hs : AsciiS "a\n\tifeq ($(word ,\\\n)\\".toList := by unfold AsciiS; decide
  obtain ⟨i, h⟩ := C85_places ⟨0⟩ _ hs 2 (by decide)
  have hp := C85_physical_lines ⟨0⟩ _ hs 2 (by decide) i h '\t' (by decide) .gnu true
  refine ⟨i, h, hp.2.1, C85_define_lines ⟨0⟩ _ hs 2 (by decide) i h (by decide), ?_⟩
  obtain ⟨P, h1, h2, h3⟩ := rest_in hs (by decide) h
  obtain ⟨r, _, b, u, e, _, _, hl, _⟩ := makefileLine_total (mode := .gnu) (strip := true) h3
  exact ⟨r, b, e, returns_of (calm_parseCondF (hl.mono h1 h2) _ ⟨_, hl.at⟩) (parseConditionalLine_sat _)⟩

/-- A line of a definition that is a comment. -/
example : ∃ i, RestOfFile ⟨0⟩ "a\n#b".toList 2 i ∧ parseDefineLine i = .panic .unwrap := by
  have hs : AsciiS "a\n#b".toList := by unfold AsciiS; decide
  obtain ⟨i, h⟩ := C85_places ⟨0⟩ _ hs 2 (by decide)
  exact ⟨i, h, C85_define_comment ⟨0⟩ _ hs 2 (by decide) i h (by decide)⟩

end Hastur
