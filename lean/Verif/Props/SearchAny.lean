import Verif.Proofs.SearchAny
import Verif.Model.Engine
import Verif.Spec.Steps
/-
C71: substring search on text that need not be ASCII, and what it means for makefiles.
-/
namespace Hastur

open Res Span

/-! ### Searching -/

/-- The full claim: in every span, searching for a non-empty string finds the byte index of its first occurrence, or
nothing when there is none. -/
def C71_full : Prop :=
  ∀ (s : Span) (text needle : Str), s.Shows text → needle ≠ [] →
    ∃ r, s.findSubstring needle = .ok r ∧ RightAnswer needle text r

/-- Searching `é=1` for the end of the line aborts. -/
theorem C71_refuted : ¬ C71_full := by
  intro h
  obtain ⟨r, h1, _⟩ := h _ _ ['\n'] (tailSpan_shows .synthetic [] "é=1\n".toList) (by simp)
  have : (match (tailSpan .synthetic [] "é=1\n".toList).findSubstring ['\n'] with
    | .ok _ => true | _ => false) = false := by decide +kernel
  rw [h1] at this
  cases this

/-- Even when it does not abort, it can give a wrong index: `é` in `aaé` is at byte 2. -/
theorem C71_wrong_index :
    (tailSpan .synthetic [] "aaé".toList).findSubstring "é".toList = .ok (some 1) ∧
      ¬ FirstAtByte "é".toList "aaé".toList 1 := by
  constructor
  · have : (match (tailSpan .synthetic [] "aaé".toList).findSubstring "é".toList with
      | .ok r => r | _ => none) = some 1 := by decide +kernel
    generalize e : (tailSpan .synthetic [] "aaé".toList).findSubstring "é".toList = x at this
    cases x with
    | ok r => cases this; rfl
    | panic c => cases this
    | fuel => cases this
  · rintro ⟨⟨pre, post, h1, h2⟩, _⟩
    have hl := congrArg blen h1
    rw [blen_append, blen_append, h2] at hl
    cases pre with
    | nil => cases h2
    | cons d pre =>
      have hd := utf8Size_pos d
      rw [blen_cons] at h2
      have hp : pre = [] := by
        cases pre with
        | nil => rfl
        | cons e pre => have := utf8Size_pos e; rw [blen_cons] at h2; omega
      subst hp
      cases h1

/-- C71 for ASCII strings, which is what the parsers look for.  Which of three things happens only depends on the beginning
of the text: it is shorter than the string, and then nothing is found; or as many bytes as the string has are a whole
number of characters, and then the answer is right; or they are not, and then the search aborts. -/
theorem C71_ascii_partial (s : Span) (text needle : Str) (h : s.Shows text) (hn : AsciiS needle) (h0 : needle ≠ []) :
    (blen text < blen needle → s.findSubstring needle = .ok none ∧ ¬ Occurs needle text) ∧
    (Boundary text (blen needle) → ∃ r, s.findSubstring needle = .ok r ∧ RightAnswer needle text r) ∧
    (blen needle ≤ blen text → ¬ Boundary text (blen needle) → s.findSubstring needle = .panic .index) := by
  refine ⟨fun h1 => ⟨findSubstring_short h h1, ?_⟩, findSubstring_any h hn h0, findSubstring_stuck h⟩
  rintro ⟨pre, post, rfl⟩
  simp at h1
  omega

/-- In particular the answer is right whenever the text begins with enough ASCII characters, whatever follows. -/
theorem C71_ascii_start_partial (s : Span) (front rest needle : Str) (h : s.Shows (front ++ rest)) (hf : AsciiS front)
    (hn : AsciiS needle) (h0 : needle ≠ []) (hl : needle.length ≤ front.length) :
    ∃ r, s.findSubstring needle = .ok r ∧ RightAnswer needle (front ++ rest) r := by
  refine findSubstring_any h hn h0 ⟨front.take needle.length, front.drop needle.length ++ rest, ?_, ?_⟩
  · rw [← List.append_assoc, List.take_append_drop]
  · rw [blen_ascii (fun c hc => hf c (List.mem_of_mem_take hc)), blen_ascii hn]
    simp [hl]

/-! ### Makefiles -/

theorem fileBlock_text (f : FileName) (s : Str) (h : s ≠ []) :
    fileBlock f s = .ok ⟨[], [CRef.ofNode (.constant ⟨.source 1 1 f, s⟩)]⟩ := by
  have hp : 0 < blen s := blen_pos.mpr h
  have ht : btake (blen s) s = .ok s := by simpa using btake_split s []
  have hz : (CRef.ofNode (.constant ⟨.source 1 1 f, s⟩)).length ≠ 0 := by
    show blen s ≠ 0
    omega
  have hs : LStr.slice ⟨.source 1 1 f, s⟩ 0 (blen s) = .ok ⟨.source 1 1 f, s⟩ := by
    unfold LStr.slice LStr.len
    simp [rassert, hp, btake, bdrop, ht, pure]
  have hr : simplifyRef 0 (CRef.ofNode (.constant ⟨.source 1 1 f, s⟩)) = .ok (CRef.ofNode (.constant ⟨.source 1 1 f, s⟩)) := by
    show (LStr.slice ⟨.source 1 1 f, s⟩ 0 (blen s) >>= _) = _
    rw [hs]
    rfl
  show Block.simplify _ = _
  unfold Block.simplify
  show (simplifyList (simplifyRef 0) _ >>= _) = _
  unfold simplifyList
  rw [if_neg hz, hr]
  rfl

/-- A makefile is a text block from its first character on. -/
private theorem read_eq (fs : Fs) (n : Nat) (name : Str) (st : St) (c : Char) (rest : Str) (hc : c ≠ bom) :
    readF fs (n + 1) (.text (c :: rest)) name st =
      processLoop fs (recF fs n) (blen (c :: rest) + 1) (tailSpan (.source 1 1 (st.names.internFile name).1) [] (c :: rest))
        PState.new { st with names := (st.names.internFile name).2 } := by
  have hs := tailSpan_shows (.source 1 1 (st.names.internFile name).1) [] (c :: rest)
  have hlen : Block.len ⟨[], [CRef.ofNode (.constant ⟨.source 1 1 (st.names.internFile name).1, c :: rest⟩)]⟩ =
      blen (c :: rest) := by
    simp [Block.len, CRef.ofNode, Node.len, LStr.len]
  have hsp : Block.span ⟨[], [CRef.ofNode (.constant ⟨.source 1 1 (st.names.internFile name).1, c :: rest⟩)]⟩ =
      tailSpan (.source 1 1 (st.names.internFile name).1) [] (c :: rest) := by
    unfold Block.span tailSpan
    rw [hlen]
    rfl
  unfold readF readMakefile
  simp only [fileBlock_text _ (c :: rest) (by simp), Res.ok_bind]
  show processStep fs (recF fs n) _ _ = _
  unfold processStep Nom.char Nom.firstChar
  rw [hsp, hs.1]
  simp only [Res.ok_bind, if_neg hc, hlen]
  rfl

private theorem loop_stuck {fs : Fs} {r : Rec} {m : Nat} {i : Span} {p : PState} {st : St} (h0 : 0 < i.length)
    (h : parseLine fs r p st i = .panic .index) : processLoop fs r (m + 1) i p st = .panic .index := by
  unfold processLoop
  rw [if_pos h0, h]
  rfl

/-- A makefile whose first line begins, after any number of blanks, with a character outside ASCII (other than a byte order
mark) always aborts the process. -/
theorem C71_line_start (fs : Fs) (n : Nat) (name : Str) (st : St) (blanks : Str) (c : Char) (rest : Str)
    (hb : ∀ d ∈ blanks, d = ' ' ∨ d = '\t') (hc : isAscii c = false) (hm : c ≠ bom) :
    readF fs (n + 1) (.text (blanks ++ c :: rest)) name st = .panic .index := by
  have hbl : ∀ d ∈ blanks, isBlank d = true := fun d hd => by rcases hb d hd with rfl | rfl <;> rfl
  have hcb : isBlank c = false := by
    cases h : isBlank c with
    | false => rfl
    | true =>
      unfold isBlank at h
      simp only [Bool.or_eq_true, beq_iff_eq] at h
      rcases h with rfl | rfl <;> cases hc
  have hch : c ≠ '#' := by rintro rfl; cases hc
  obtain ⟨d, u, e, hd⟩ : ∃ d u, blanks ++ c :: rest = d :: u ∧ d ≠ bom := by
    cases blanks with
    | nil => exact ⟨c, rest, rfl, hm⟩
    | cons d blanks =>
      refine ⟨d, blanks ++ c :: rest, rfl, ?_⟩
      rcases hb d (by simp) with rfl | rfl <;> decide
  rw [e, read_eq fs n name st d u hd, ← e]
  refine loop_stuck ?_ ?_
  · show 0 < blen _
    exact blen_pos.mpr (by simp)
  obtain ⟨pre, hw⟩ := tailSpan_whitespace (.source 1 1 (st.names.internFile name).1) [] blanks c rest
    (by intro c hc; cases hc) hbl hcb
  have hs := tailSpan_shows (.source 1 1 (st.names.internFile name).1) ([] ++ blanks) (c :: rest)
  have hg := grabLine_stuck hs hc
  have hcomment : parseCommentFollowingWhitespace (tailSpan (.source 1 1 (st.names.internFile name).1) []
      (blanks ++ c :: rest)) = codeError := by
    unfold parseCommentFollowingWhitespace
    rw [hw]
    show parseComment _ = _
    unfold parseComment Nom.char Nom.firstChar
    rw [hs.1]
    simp only [Res.ok_bind, if_neg hch]
    rfl
  unfold parseLine
  rw [hcomment]
  show parseCollapsed _ _ _ _ _ = _
  have hline : makefileLine (tailSpan (.source 1 1 (st.names.internFile name).1) [] (blanks ++ c :: rest)) .gnu true =
      .panic .index := by
    unfold makefileLine
    rw [if_pos rfl, hw]
    show (grabLine _).andThen _ = _
    rw [hg]
    rfl
  unfold parseCollapsed
  rw [hline]
  rfl

/-- So does a makefile that begins with a comment whose text begins with such a character. -/
theorem C71_comment_start (fs : Fs) (n : Nat) (name : Str) (st : St) (blanks : Str) (c : Char) (rest : Str)
    (hb : ∀ d ∈ blanks, d = ' ' ∨ d = '\t') (hc : isAscii c = false) :
    readF fs (n + 1) (.text (blanks ++ '#' :: c :: rest)) name st = .panic .index := by
  have hbl : ∀ d ∈ blanks, isBlank d = true := fun d hd => by rcases hb d hd with rfl | rfl <;> rfl
  obtain ⟨d, u, e, hd⟩ : ∃ d u, blanks ++ '#' :: c :: rest = d :: u ∧ d ≠ bom := by
    cases blanks with
    | nil => exact ⟨'#', c :: rest, rfl, by decide⟩
    | cons d blanks =>
      refine ⟨d, blanks ++ '#' :: c :: rest, rfl, ?_⟩
      rcases hb d (by simp) with rfl | rfl <;> decide
  rw [e, read_eq fs n name st d u hd, ← e]
  refine loop_stuck ?_ ?_
  · show 0 < blen _
    exact blen_pos.mpr (by simp)
  obtain ⟨pre, hw⟩ := tailSpan_whitespace (.source 1 1 (st.names.internFile name).1) [] blanks '#' (c :: rest)
    (by intro c hc; cases hc) hbl (by decide)
  have hs := tailSpan_shows (.source 1 1 (st.names.internFile name).1) ([] ++ blanks) ('#' :: c :: rest)
  have hs2 := tailSpan_shows (.source 1 1 (st.names.internFile name).1) ([] ++ blanks ++ ['#']) (c :: rest)
  have hsl := tailSpan_sliceFrom (.source 1 1 (st.names.internFile name).1) ([] ++ blanks) ['#'] (c :: rest)
    (by intro x hx; rcases hb x (by simpa using hx) with rfl | rfl <;> rfl)
    (by intro x hx; simp at hx; subst hx; rfl) (by simp)
  have hg := grabLine_stuck hs2 hc
  have hcomment : parseCommentFollowingWhitespace (tailSpan (.source 1 1 (st.names.internFile name).1) []
      (blanks ++ '#' :: c :: rest)) = .panic .index := by
    unfold parseCommentFollowingWhitespace
    rw [hw]
    show parseComment _ = _
    have hchar : Nom.char '#' (tailSpan (.source 1 1 (st.names.internFile name).1) ([] ++ blanks) ('#' :: c :: rest)) =
        .ok (.done (tailSpan (.source 1 1 (st.names.internFile name).1) ([] ++ blanks ++ ['#']) (c :: rest)) ()) := by
      unfold Nom.char Nom.firstChar
      rw [hs.1]
      show (Span.sliceFrom _ 1 >>= _) = _
      have hsl' : Span.sliceFrom (tailSpan (.source 1 1 (st.names.internFile name).1) ([] ++ blanks) ('#' :: c :: rest)) 1 =
        _ := hsl
      rw [hsl']
      rfl
    unfold parseComment
    rw [hchar]
    show (grabLine _).andThen _ = _
    rw [hg]
    rfl
  unfold parseLine
  rw [hcomment]
  rfl

/-! ### Examples -/

/-- A case of `C71_ascii_partial` with a right answer: `=` in `xé=1` is at byte 3. -/
example : (tailSpan .synthetic [] "xé=1".toList).Shows "xé=1".toList ∧ AsciiS ['='] ∧ Boundary "xé=1".toList (blen ['=']) ∧
    FirstAtByte ['='] "xé=1".toList 3 := by
  refine ⟨tailSpan_shows _ _ _, by unfold AsciiS; decide, ⟨['x'], ['é', '=', '1'], rfl, rfl⟩, ?_⟩
  refine ⟨⟨['x', 'é'], ['1'], rfl, by decide⟩, ?_⟩
  intro pre post h
  rcases pre with _ | ⟨a, _ | ⟨b, pre⟩⟩
  · cases h
  · cases h
  · have h1 : a = 'x' ∧ b = 'é' := by
      simp at h
      exact ⟨h.1.symm, h.2.1.symm⟩
    obtain ⟨rfl, rfl⟩ := h1
    rw [blen_cons, blen_cons]
    have : Char.utf8Size 'x' = 1 ∧ Char.utf8Size 'é' = 2 := by decide
    omega

/-- A case of the third part: no whole number of characters of `é=1` has one byte. -/
example : blen ['='] ≤ blen "é=1".toList ∧ ¬ Boundary "é=1".toList (blen ['=']) := by
  refine ⟨by decide, ?_⟩
  rw [show "é=1".toList = 'é' :: "=1".toList from rfl, boundary_iff (by decide)]
  rintro ⟨h, _⟩
  revert h
  decide

/-- Cases of the theorems about makefiles: `  été=1` and `#été`. -/
example (fs : Fs) (st : St) : readF fs 1 (.text "  été=1\n".toList) "Makefile".toList st = .panic .index ∧
    readF fs 1 (.text "#été\nx=1\n".toList) "Makefile".toList st = .panic .index :=
  ⟨C71_line_start fs 0 _ st [' ', ' '] 'é' "té=1\n".toList (by simp) (by decide) (by decide),
   C71_comment_start fs 0 _ st [] 'é' "té\nx=1\n".toList (by simp) (by decide)⟩

end Hastur
