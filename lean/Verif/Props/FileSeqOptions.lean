import Verif.Proofs.FileSeqOptions
/-
C75: the options for lists of file names.

`i.At P t` says that the span `i` is a well-formed window of block `P` and shows the located text `t`
(Spec/Text.lean); `NamesIn`, `separates`, `lastName` and `withoutDot` are in Spec/Lines.lean.
-/
namespace Hastur

open Res

/-- With `strip_leading_dotslash`, no name in the result is empty or begins with `./`. -/
def C75_full : Prop :=
  ∀ (P : Block) (t : List LChar) (i : Span) (o : FileSeqOptions), i.At P t → '\\' ∉ o.extraStopchars →
    o.checkAr = false → o.doGlob = false → o.existOnly = false → o.stripLeadingDotslash = true →
    ∃ bs, parseFileSeqOpts o i = .ok bs ∧ ∀ b ∈ bs, Block.ltext b ≠ [] ∧ ¬ ['.', '/'] <+: textOf (Block.ltext b)

private theorem blocks_ltext {P : Block} {ts : List (List LChar)} {bs : List Block} (h : Blocks P ts bs) :
    bs.map Block.ltext = ts := by
  induction h with
  | nil => rfl
  | cons h _ ih => simp [ih, h.ltext]

/-- Looking for archives, expanding globs or asking for existing files aborts, for every list. -/
theorem C75_unsupported (o : FileSeqOptions) (i : Span) (h : o.checkAr = true ∨ o.doGlob = true ∨ o.existOnly = true) :
    parseFileSeqOpts o i = .panic .assertion := by
  unfold parseFileSeqOpts
  rcases h with h | h | h
  · rw [if_pos h]
  · rw [if_pos h]; split <;> rfl
  · rw [if_pos h]; split <;> first | rfl | (split <;> rfl)

/-- Without options the names are those of C74. -/
theorem C75_defaults (extraStop : Str) (i : Span) :
    parseFileSeqOpts { extraStopchars := extraStop } i = parseFileSeq extraStop i := by
  unfold parseFileSeqOpts parseFileSeq
  simp only [Bool.false_eq_true, if_false]
  congr 1
  funext x
  cases x with
  | done r u => exact fileSeqLoopOpts_default _ rfl _ _ _
  | err e => rfl

/-- What `strip_leading_dotslash` does: of each name in the list, one `./` at the beginning is dropped. -/
theorem C75_strip_exact (P : Block) (t : List LChar) (i : Span) (o : FileSeqOptions) (h : i.At P t)
    (hx : '\\' ∉ o.extraStopchars) (h1 : o.checkAr = false) (h2 : o.doGlob = false) (h3 : o.existOnly = false)
    (h4 : o.stripLeadingDotslash = true) :
    ∃ bs ns, parseFileSeqOpts o i = .ok bs ∧ NamesIn (separates o.extraStopchars) (lastName (separates o.extraStopchars)) t ns ∧
      bs.map Block.ltext = ns.map withoutDot := by
  obtain ⟨bs, ns, e1, e2, e3⟩ := parseFileSeqOpts_names o (by simpa using hx) h1 h2 h3 h
  refine ⟨bs, ns, e1, e2, ?_⟩
  rw [blocks_ltext e3]
  refine List.map_congr_left fun w _ => ?_
  unfold FileSeqOptions.cleaned
  rw [if_pos h4]

/-- The property holds of the lists in which no name is `./` or begins with `././`. -/
theorem C75_strip_partial (P : Block) (t : List LChar) (i : Span) (o : FileSeqOptions) (h : i.At P t)
    (hx : '\\' ∉ o.extraStopchars) (h1 : o.checkAr = false) (h2 : o.doGlob = false) (h3 : o.existOnly = false)
    (h4 : o.stripLeadingDotslash = true)
    (hn : ∀ ns, NamesIn (separates o.extraStopchars) (lastName (separates o.extraStopchars)) t ns →
      ∀ w ∈ ns, textOf w ≠ ['.', '/'] ∧ ¬ ['.', '/', '.', '/'] <+: textOf w) :
    ∃ bs, parseFileSeqOpts o i = .ok bs ∧ ∀ b ∈ bs, Block.ltext b ≠ [] ∧ ¬ ['.', '/'] <+: textOf (Block.ltext b) := by
  obtain ⟨bs, ns, e1, e2, e3⟩ := C75_strip_exact P t i o h hx h1 h2 h3 h4
  refine ⟨bs, e1, fun b hb => ?_⟩
  have : Block.ltext b ∈ ns.map withoutDot := by rw [← e3]; exact List.mem_map_of_mem hb
  obtain ⟨w, hw, he⟩ := List.mem_map.mp this
  rw [← he]
  obtain ⟨n1, n2⟩ := hn ns e2 w hw
  have hne : w ≠ [] := e2.ne_nil w hw
  unfold withoutDot
  split
  · rename_i hp
    obtain ⟨r, hr⟩ := hp
    have hd : textOf (w.drop 2) = r := by
      rw [textOf, List.map_drop, ← textOf, ← hr]
      rfl
    constructor
    · intro e
      rw [e] at hd
      rw [← hd] at hr
      exact n1 hr.symm
    · rintro ⟨s, hs⟩
      rw [hd] at hs
      exact n2 ⟨s, by rw [← hr, ← hs]; rfl⟩
  · exact ⟨hne, by assumption⟩

private def txt (s : String) : List LChar := locate .synthetic s.toList

private theorem at_txt (s : String) (h : AsciiS s.toList) : (textBlock .synthetic s.toList).span.At
    (textBlock .synthetic s.toList) (txt s) := textBlock_at (loc := .synthetic) h

private theorem read (s : String) (ha : AsciiS s.toList) (ns : List (List LChar))
    (hn : NamesIn (separates []) (lastName (separates [])) (txt s) ns) :
    ∃ bs, parseFileSeqOpts { stripLeadingDotslash := true } (textBlock .synthetic s.toList).span = .ok bs ∧
      bs.map Block.ltext = ns.map withoutDot := by
  obtain ⟨bs, ns', e1, e2, e3⟩ := C75_strip_exact _ _ _ { stripLeadingDotslash := true } (at_txt s ha) (by simp) rfl rfl
    rfl rfl
  rw [NamesIn.unique hn e2]
  exact ⟨bs, e1, e3⟩

/-- `././a` becomes `./a`. -/
theorem C75_refuted : ¬ C75_full := by
  intro h
  have ha : AsciiS "././a".toList := by unfold AsciiS; decide
  obtain ⟨bs, h1, h2⟩ := h _ _ _ { stripLeadingDotslash := true } (at_txt "././a" ha) (by simp) rfl rfl rfl rfl
  obtain ⟨bs', h3, h4⟩ := read "././a" ha _ (NamesIn.rest (by decide))
  rw [h1] at h3
  cases h3
  have e : bs.map Block.ltext = [txt "./a"] := h4.trans (by decide)
  cases bs with
  | nil => cases e
  | cons b bs =>
    rw [List.map_cons, List.cons.injEq] at e
    exact (h2 b (by simp)).2 (by rw [e.1]; decide)

/-- The name `./` becomes the empty name. -/
example : ∃ bs, parseFileSeqOpts { stripLeadingDotslash := true } (textBlock .synthetic "./".toList).span = .ok bs ∧
    bs.map Block.ltext = [[]] := by
  obtain ⟨bs, h1, h2⟩ := read "./" (by unfold AsciiS; decide) _ (NamesIn.rest (by decide))
  exact ⟨bs, h1, h2.trans (by decide)⟩

/-- `./a ../b`: the names are `a` and `../b`. -/
example : ∃ bs, parseFileSeqOpts { stripLeadingDotslash := true } (textBlock .synthetic "./a ../b".toList).span = .ok bs ∧
    bs.map Block.ltext = [txt "a", txt "../b"] := by
  have e1 : (unquote (separates []) [] (txt "./a ../b")).2 = some ((' ', .synthetic), txt "../b") := by decide
  obtain ⟨bs, h1, h2⟩ := read "./a ../b" (by unfold AsciiS; decide) _ (NamesIn.next e1 (NamesIn.rest (by decide)))
  exact ⟨bs, h1, h2.trans (by decide)⟩

/-- The hypothesis of the partial theorem on that list. -/
example : ∀ ns, NamesIn (separates []) (lastName (separates [])) (txt "./a ../b") ns →
    ∀ w ∈ ns, textOf w ≠ ['.', '/'] ∧ ¬ ['.', '/', '.', '/'] <+: textOf w := by
  have e1 : (unquote (separates []) [] (txt "./a ../b")).2 = some ((' ', .synthetic), txt "../b") := by decide
  intro ns h
  rw [h.unique (NamesIn.next e1 (NamesIn.rest (by decide)))]
  decide

end Hastur
