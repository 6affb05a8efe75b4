import Verif.Proofs.FileNames
/-
C74: lists of file names with backslashes.

`i.At P t` says that the span `i` is a well-formed window of block `P` and shows the located text `t`
(Spec/Text.lean); `NamesIn`, `separates`, `unquote`, `lastName` and `escapeName` are in Spec/Lines.lean.
-/
namespace Hastur

open Res

/-- make's rule: in front of a separator 2n+1 backslashes stand for n backslashes and the separator is part of the name,
2n stand for n and the name ends there; everywhere else, also at the end of the list, backslashes stand for
themselves. -/
def C74_full : Prop :=
  ∀ (P : Block) (t : List LChar) (i : Span) (extraStop : Str), i.At P t → '\\' ∉ extraStop →
    ∃ bs, parseFileSeq extraStop i = .ok bs ∧
      NamesIn (separates extraStop) (fun s => (unquote (separates extraStop) [] s).1) t (bs.map Block.ltext)

private theorem blocks_ltext {P : Block} {ts : List (List LChar)} {bs : List Block} (h : Blocks P ts bs) :
    bs.map Block.ltext = ts := by
  induction h with
  | nil => rfl
  | cons h _ ih => simp [ih, h.ltext]

/-- What the engine does with any list: it follows make's rule, except that the name at the end of the list is read as
`lastName` says. -/
theorem C74_names_exact (P : Block) (t : List LChar) (i : Span) (extraStop : Str) (h : i.At P t) (hx : '\\' ∉ extraStop) :
    ∃ bs, parseFileSeq extraStop i = .ok bs ∧
      NamesIn (separates extraStop) (lastName (separates extraStop)) t (bs.map Block.ltext) := by
  obtain ⟨bs, ns, h1, h2, h3⟩ := parseFileSeq_escaped extraStop (by simpa using hx) h
  refine ⟨bs, h1, ?_⟩
  rw [blocks_ltext h3]
  exact h2

/-- A list has only one reading, under either rule. -/
theorem C74_names_unique (stop : Char → Bool) (last : List LChar → List LChar) (t : List LChar)
    (ns ns' : List (List LChar)) (h : NamesIn stop last t ns) (h' : NamesIn stop last t ns') : ns = ns' :=
  h.unique h'

/-- Missing from the full statement: lists that end in a backslash. -/
theorem C74_names_partial (P : Block) (t : List LChar) (i : Span) (extraStop : Str) (h : i.At P t) (hx : '\\' ∉ extraStop)
    (ht : ∀ x, t.getLast? = some x → x.1 ≠ '\\') :
    ∃ bs, parseFileSeq extraStop i = .ok bs ∧
      NamesIn (separates extraStop) (fun s => (unquote (separates extraStop) [] s).1) t (bs.map Block.ltext) := by
  obtain ⟨bs, h1, h2⟩ := C74_names_exact P t i extraStop h hx
  refine ⟨bs, h1, h2.congr fun a s hs => lastName_of_even (trailing_suffix (a := a) ?_)⟩
  rw [← hs]
  have := trailing_eq (a := t) (run := []) (fun y z e => ht z (by rw [e]; simp)) (by simp)
  simpa using this

/-- Any list of names can be written down: each with its separators escaped, and followed by a separator. -/
theorem C74_written_names_read_back (P : Block) (i : Span) (extraStop : Str) (ws : List (List LChar × LChar))
    (hx : '\\' ∉ extraStop) (hw : ∀ p ∈ ws, p.1 ≠ [] ∧ separates extraStop p.2.1 = true)
    (h : i.At P (ws.flatMap fun p => escapeName (separates extraStop) [] p.1 ++ [p.2])) :
    ∃ bs, parseFileSeq extraStop i = .ok bs ∧ bs.map Block.ltext = ws.map Prod.fst := by
  obtain ⟨bs, h1, h2⟩ := C74_names_exact P _ i extraStop h hx
  refine ⟨bs, h1, h2.unique (NamesIn.escaped (by simp [lastName, unquote]) fun p hp => ?_)⟩
  obtain ⟨a, b⟩ := hw p hp
  refine ⟨a, fun e => ?_, b⟩
  rw [e] at b
  simp only [separates, Bool.or_eq_true] at b
  rcases b with (b | b) | b
  · revert b; decide
  · revert b; decide
  · exact hx (by simpa using b)

private def txt (s : String) : List LChar := locate .synthetic s.toList

private theorem at_txt (s : String) (h : AsciiS s.toList) : (textBlock .synthetic s.toList).span.At
    (textBlock .synthetic s.toList) (txt s) := textBlock_at (loc := .synthetic) h

/-- Of two backslashes at the end of a list, one is dropped. -/
theorem C74_refuted : ¬ C74_full := by
  intro h
  have hat := at_txt "a\\\\" (by unfold AsciiS; decide)
  obtain ⟨bs, h1, h2⟩ := h _ _ _ [] hat (by simp)
  obtain ⟨bs', h3, h4⟩ := C74_names_exact _ _ _ [] hat (by simp)
  rw [h1] at h3
  cases h3
  have e1 := h2.unique (NamesIn.rest (by decide))
  have e2 := h4.unique (NamesIn.rest (by decide))
  rw [e1] at e2
  revert e2
  decide

/-- `two\ words \\` then a tab, `x\y`: three names, the first with a space in it, the second one backslash. -/
example : ∃ bs, parseFileSeq [] (textBlock .synthetic "two\\ words \\\\\tx\\y".toList).span = .ok bs ∧
    bs.map Block.ltext = [txt "two words", txt "\\", txt "x\\y"] := by
  obtain ⟨bs, h1, h2⟩ := C74_names_partial _ _ _ [] (at_txt "two\\ words \\\\\tx\\y" (by unfold AsciiS; decide)) (by simp)
    (by decide)
  refine ⟨bs, h1, h2.unique ?_⟩
  have e1 : (unquote (separates []) [] (txt "two\\ words \\\\\tx\\y")).2 = some ((' ', .synthetic), txt "\\\\\tx\\y") := by decide
  have e2 : (unquote (separates []) [] (txt "\\\\\tx\\y")).2 = some (('\t', .synthetic), txt "x\\y") := by decide
  have e3 : (unquote (separates []) [] (txt "x\\y")).2 = none := by decide
  exact NamesIn.next e1 (NamesIn.next e2 (NamesIn.rest e3))

/-- The names `a b` and `c\`, written `a\ b c\\ `. -/
example : ∃ bs, parseFileSeq [] (textBlock .synthetic "a\\ b c\\\\ ".toList).span = .ok bs ∧
    bs.map Block.ltext = [txt "a b", txt "c\\"] :=
  C74_written_names_read_back _ _ [] [(txt "a b", (' ', .synthetic)), (txt "c\\", (' ', .synthetic))] (by simp)
    (by decide) (at_txt "a\\ b c\\\\ " (by unfold AsciiS; decide))

end Hastur
