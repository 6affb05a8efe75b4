import Verif.Proofs.Define
import Verif.Proofs.BadLine
import Verif.Spec.BadLine

/-!
Definitions with a malformed name.
-/

namespace Hastur
open Res Span
variable {P : Block} {t : List LChar} {i : Span}

theorem BadDefine.split {line : List LChar} {k : ParseErrorKind} (h : BadDefine line k) :
    ∃ kw gap rest name ty, line = kw ++ (gap ++ rest) ∧ (textOf kw).map lower = "define".toList ∧ Blanks gap ∧
      (∀ x, rest.head? = some x → ¬ (x.1 = ' ' ∨ x.1 = '\t')) ∧ (∀ n ty v, ¬ AssignText line n ty v) ∧
      AssignText rest name ty [] ∧ Reads name (.error k) := by
  cases h with
  | mk h1 h2 h3 h4 h5 h6 => exact ⟨_, _, _, _, _, rfl, h1, h2, h3, h4, h5, h6⟩

theorem BadDefine.dropBlanks {line : List LChar} {k : ParseErrorKind} (h : BadDefine line k) :
    line.dropWhile lblank = line ∧ line ≠ [] ∧ ¬ CondLike line := by
  obtain ⟨kw, gap, rest, _, _, rfl, hk, _⟩ := h.split
  have hc := not_cond_keyword (rest := gap ++ rest) hk define_not_cond
  cases kw with
  | nil => cases hk
  | cons x kw =>
    refine ⟨dropWhile_solid fun y hy => ?_, by simp, hc⟩
    cases hy
    have hl : lower x.1 = 'd' := (List.cons.inj hk).1
    simp only [Bool.eq_false_iff, ne_eq, lblank_iff]
    rintro (hb | hb) <;> rw [hb] at hl <;> revert hl <;> decide

theorem parseVariableLine_badDefine (r : Rec) (hm : Block.Mono P) {line : List LChar} {k : ParseErrorKind} {st : St}
    (h : i.At P line) (hd : BadDefine line k) :
    parseVariableLine r i st = .ok (.err (.failure (.custom k)), st) := by
  have hdrop := hd.dropBlanks
  obtain ⟨kw, gap, rest, name, ty, rfl, h1, h2, h3, h4, h5, h6⟩ := hd.split
  obtain ⟨s, q, e1, e2, _⟩ := whitespace_at h
  rw [hdrop.1] at e2
  obtain ⟨r1, q1, f1, f2, _⟩ := (Nom.tagNoCase_at e2 (w := "define".toList) (by unfold AsciiS; decide)).1 (by
    rw [textOf_append, List.map_append, h1]; exact List.prefix_append _ _)
  have hlen : "define".toList.length = kw.length := by rw [← h1]; simp [textOf]
  rw [hlen, List.drop_left] at f2
  obtain ⟨r2, q2, g1, g2, _⟩ := whitespace_at f2
  rw [dropWhile_blanks h2, dropWhile_solid (fun y hy => by simpa using fun hb => h3 y hy (lblank_iff.mp hb))] at g2
  obtain ⟨r3, q3, k1, k2, k3⟩ := parseAssignmentOperator_at g2 h5
  obtain ⟨r4, q4, m1, m2, _⟩ := whitespace_at k2
  have hz : r4.length = 0 := by rw [m2.length]; rfl
  have hbad := (parseAst_at hm k3 h6).1
  unfold parseVariableLine
  have h0 : s.length ≠ 0 := by rw [e2.length]; simpa using hdrop.2.1
  simp only [e1, ok_bind, if_neg h0]
  unfold modifierLoop
  simp only [parseVariableAssignment_none r _ st e2 h4, ok_bind]
  unfold modifierKeyword
  simp only [f1, done_mapP, done_orElse, done_andThen, g1]
  unfold parseDefineHead
  simp only [k1, done_andThen, m1, done_def, ok_bind, hz, if_true, hbad]
  rfl

/-- The line is reported, and nothing has happened. -/
theorem parseLine_badDefine (fs : Fs) {line rest : List LChar} {p : PState} {st : St} {k : ParseErrorKind}
    (h : FoundLine P i t line rest p st) (hr : p.currentRule = none ∨ (textOf t).head? ≠ some st.commandChar)
    (ha : p.ignoring = false) (hb : BadDefine line k) (r : Rec) :
    parseLine fs r p st i = .ok (.err (.failure (.custom k)), p, st) := by
  obtain ⟨j, b, e1, e2, e3⟩ := h.found
  have hat := e3.at
  have hdrop := hb.dropBlanks
  have hlen : b.len ≠ 0 := by
    have := hat.length
    have e : b.span.length = b.len := rfl
    rw [← e, this]
    simpa using hdrop.2.1
  rw [parseLine_collapsed_of fs _ h.at_ h.comment h.define h.command hr]
  unfold parseCollapsed
  simp only [e1, ok_bind, if_neg hlen, parseConditionalLine_none hat (by rw [hdrop.1]; exact hdrop.2.2),
    if_neg (show ¬ p.ignoring = true by rw [ha]; decide)]
  unfold parseStatement
  simp only [parseVariableLine_badDefine r (e3.mono h.pieces h.mono) hat hb, ok_bind]
  rfl

/-- A space or a tab. -/
def isBlankChar (c : Char) : Bool := c == ' ' || c == '\t'

/-- `NameChar`, as a function. -/
def isNameChar (c : Char) : Bool :=
  !isWhitespace c && c != ':' && c != '=' && c != '!' && c != '?' && c != '+'

/-- After the name and blanks there is the operator. -/
theorem AssignText.operator {line name value : List LChar} {ty : AssignType} (h : AssignText line name ty value) :
    ∃ c, (((textOf line).dropWhile isNameChar).dropWhile isBlankChar).head? = some c ∧ c ∈ ['=', ':', '!', '?', '+'] := by
  cases h with
  | mk _ gap op gap' _ _ h1 h2 h3 _ _ =>
    simp only [textOf_append]
    have n1 : ∀ c ∈ textOf name, isNameChar c = true := by
      intro c hc
      obtain ⟨y, hy, rfl⟩ := List.mem_map.mp hc
      have := h1 y hy
      unfold NameChar at this
      simp [isNameChar, this]
    have n2 : ∀ c ∈ textOf gap, isBlankChar c = true ∧ isNameChar c = false := by
      intro c hc
      obtain ⟨y, hy, rfl⟩ := List.mem_map.mp hc
      rcases h2 y hy with e | e <;> rw [e] <;> decide
    rw [List.dropWhile_append_of_pos n1]
    obtain ⟨c, o, e, ho⟩ : ∃ c o, textOf op = c :: o ∧ c ∈ ['=', ':', '!', '?', '+'] := by
      generalize textOf op = o at h3
      cases h3 <;> exact ⟨_, _, rfl, by decide⟩
    have ho' : isNameChar c = false ∧ isBlankChar c = false := by
      clear e; revert c; decide
    refine ⟨c, ?_, ho⟩
    generalize textOf gap' ++ textOf value = z
    have e2 : (textOf gap ++ (textOf op ++ z)).dropWhile isNameChar = textOf gap ++ (textOf op ++ z) := by
      cases hg : textOf gap with
      | nil => simp [e, ho'.1]
      | cons a g => simp [(n2 a (by rw [hg]; simp)).2]
    rw [e2, List.dropWhile_append_of_pos fun c hc => (n2 c hc).1, e]
    simp [ho'.2]

end Hastur
