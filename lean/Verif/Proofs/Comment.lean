import Verif.Spec.Comment
import Verif.Proofs.Driver
/-
Lemmas: comment lines at the start of a makefile.
-/
namespace Hastur

open Res Span

variable {P : Block} {i : Span} {t : List LChar}

/-- The last comment character of a text. -/
theorem last_hash (t : List LChar) : Free '#' t ∨ ∃ a l b, t = a ++ ('#', l) :: b ∧ Free '#' b := by
  induction t with
  | nil => exact .inl (by unfold Free; simp)
  | cons x t ih =>
    rcases ih with h | ⟨a, l, b, rfl, hb⟩
    · by_cases hx : x.1 = '#'
      · exact .inr ⟨[], x.2, t, by rw [← hx]; rfl, h⟩
      · exact .inl (Free.cons.mpr ⟨hx, h⟩)
    · exact .inr ⟨x :: a, l, b, rfl, hb⟩

theorem Leaves.suffix {t rest : List LChar} (h : Leaves t rest) : rest <:+ t := by
  induction h with
  | eof l => exact List.nil_suffix
  | stop l loc rest => exact ⟨l ++ [('\n', loc)], by simp⟩
  | cont l loc t rest _ _ _ ih => exact ih.trans ⟨l ++ [('\n', loc)], by simp⟩

theorem trailingSlashes_cons (s t : Str) {c : Char} (h : c ≠ '\\') : trailingSlashes (s ++ c :: t) = trailingSlashes t := by
  unfold trailingSlashes
  rw [List.reverse_append, List.reverse_cons, List.append_assoc, List.takeWhile_append]
  split
  · have : List.takeWhile (· == '\\') ([c] ++ s.reverse) = [] := by simp [h]
    rw [this, List.append_nil]
    rename_i e
    rw [e]
  · rfl

/-- What a comment leaves is what the text after its last comment character leaves. -/
theorem Leaves.last_hash {t rest : List LChar} (h : Leaves t rest) (hf : Free '#' rest) :
    (Free '#' t ∨ ∃ a l b, t = a ++ ('#', l) :: b ∧ Free '#' b ∧ Leaves b rest) := by
  induction h with
  | eof l h1 =>
    rcases Hastur.last_hash l with h | ⟨a, x, b, rfl, hb⟩
    · exact .inl h
    · exact .inr ⟨a, x, b, rfl, hb, .eof b fun y hy => h1 y (by simp [hy])⟩
  | stop l loc rest h1 h2 =>
    rcases Hastur.last_hash l with h | ⟨a, x, b, rfl, hb⟩
    · refine .inl fun y hy => ?_
      rcases List.mem_append.mp hy with hy | hy
      · exact h y hy
      · rcases List.mem_cons.mp hy with rfl | hy
        · show '\n' ≠ '#'; decide
        · exact hf y hy
    · refine .inr ⟨a, x, b ++ ('\n', loc) :: rest, by simp, ?_, .stop b loc rest (fun y hy => h1 y (by simp [hy])) ?_⟩
      · intro y hy
        rcases List.mem_append.mp hy with hy | hy
        · exact hb y hy
        · rcases List.mem_cons.mp hy with rfl | hy
          · show '\n' ≠ '#'; decide
          · exact hf y hy
      · rwa [textOf_append, textOf_cons, trailingSlashes_cons _ _ (by show '#' ≠ _; decide)] at h2
  | cont l loc t rest h1 h2 h3 ih =>
    rcases ih hf with h | ⟨a, x, b, rfl, hb, hl⟩
    · rcases Hastur.last_hash l with h' | ⟨a, x, b, rfl, hb⟩
      · refine .inl fun y hy => ?_
        rcases List.mem_append.mp hy with hy | hy
        · exact h' y hy
        · rcases List.mem_cons.mp hy with rfl | hy
          · show '\n' ≠ '#'; decide
          · exact h y hy
      · refine .inr ⟨a, x, b ++ ('\n', loc) :: t, by simp, ?_, .cont b loc t rest (fun y hy => h1 y (by simp [hy])) ?_ h3⟩
        · intro y hy
          rcases List.mem_append.mp hy with hy | hy
          · exact hb y hy
          · rcases List.mem_cons.mp hy with rfl | hy
            · show '\n' ≠ '#'; decide
            · exact h y hy
        · rwa [textOf_append, textOf_cons, trailingSlashes_cons _ _ (by show '#' ≠ _; decide)] at h2
    · exact .inr ⟨l ++ ('\n', loc) :: a, x, b, by simp, hb, hl⟩

/-- Comment lines begin with a comment character, and only what follows the last one counts. -/
theorem CommentLines.shape {t rest : List LChar} (h : CommentLines t rest) (hf : Free '#' rest) :
    ∃ bl l u, t = bl ++ ('#', l) :: u ∧ Blanks bl ∧
      ((Free '#' u ∧ Leaves u rest) ∨ ∃ a l' b, u = a ++ ('#', l') :: b ∧ Free '#' b ∧ Leaves b rest) := by
  induction h with
  | last hb hl =>
    refine ⟨_, _, _, rfl, hb, ?_⟩
    rcases hl.last_hash hf with h | h
    · exact .inl ⟨h, hl⟩
    · exact .inr h
  | @more bl u gap next rest l hb hl hg _ ih =>
    obtain ⟨bl', l', u', rfl, hb', h⟩ := ih hf
    refine ⟨_, _, _, rfl, hb, .inr ?_⟩
    obtain ⟨w, hw⟩ := hl.suffix
    rcases h with ⟨h1, h2⟩ | ⟨a, l'', b, rfl, h1, h2⟩
    · exact ⟨w ++ (gap ++ bl'), l', u', by rw [← hw]; simp, h1, h2⟩
    · exact ⟨w ++ (gap ++ (bl' ++ ('#', l') :: a)), l'', b, by rw [← hw]; simp, h1, h2⟩

theorem Swallowed.suffix {t rest : List LChar} (h : Swallowed t rest) : rest <:+ t ∧ rest.length < t.length := by
  cases h with
  | @one u _ l _ hl =>
    refine ⟨hl.suffix.trans (List.suffix_cons _ _), ?_⟩
    have := hl.suffix.length_le
    simp only [List.length_cons]
    omega
  | @more a b _ l l' _ hl =>
    refine ⟨hl.suffix.trans (((List.suffix_cons _ _).trans (List.suffix_append a _)).trans (List.suffix_cons _ _)), ?_⟩
    have := hl.suffix.length_le
    simp only [List.length_cons, List.length_append]
    omega

theorem Swallowed.free {t rest : List LChar} (h : Swallowed t rest) : Free '#' rest := by
  cases h with
  | one h hl => exact h.of_suffix hl.suffix
  | more h hl => exact h.of_suffix hl.suffix

/-- Comment lines are among what counts as comments. -/
theorem CommentLines.swallowed {t rest : List LChar} (h : CommentLines t rest) (hf : Free '#' rest) :
    ∃ bl u, t = bl ++ u ∧ Blanks bl ∧ Swallowed u rest := by
  obtain ⟨bl, l, u, rfl, hb, ⟨h1, h2⟩ | ⟨a, l', b, rfl, h1, h2⟩⟩ := h.shape hf
  · exact ⟨bl, _, rfl, hb, .one h1 h2⟩
  · exact ⟨bl, _, rfl, hb, .more h1 h2⟩

/-- What counts as comments is skipped at once, whatever the state of the engine. -/
theorem parseLine_swallowed {bl u rest : List LChar} (hb : Blanks bl) (h : Swallowed u rest) (hi : i.At P (bl ++ u)) :
    ∃ j, j.At P rest ∧ ∀ (fs : Fs) (r : Rec) (p : PState) (st : St), parseLine fs r p st i = .ok (.done j (), p, st) := by
  obtain ⟨i1, q, e1, e2, _⟩ := whitespace_at hi
  have hd : (bl ++ u).dropWhile lblank = u := by
    rw [List.dropWhile_append_of_pos (blanks_iff.mp hb)]
    cases h <;> rfl
  rw [hd] at e2
  have key : ∃ j, parseComment i1 = .ok (.done j ()) ∧ j.At P rest := by
    cases h with
    | one h1 h2 => exact parseComment_leaves h2 h1 e2
    | more h1 h2 => exact parseComment_swallows h2 h1 e2
  obtain ⟨j, k1, k2⟩ := key
  refine ⟨j, k2, fun fs r p st => ?_⟩
  unfold parseLine parseCommentFollowingWhitespace
  simp only [e1, done_andThen, k1, ok_bind]
  rfl

/-- Comment lines are skipped at once, whatever the state of the engine. -/
theorem parseLine_comments {rest : List LChar} (h : CommentLines t rest) (hf : Free '#' rest) (hi : i.At P t) :
    ∃ j, j.At P rest ∧ ∀ (fs : Fs) (r : Rec) (p : PState) (st : St), parseLine fs r p st i = .ok (.done j (), p, st) := by
  obtain ⟨bl, u, rfl, hb, hu⟩ := h.swallowed hf
  exact parseLine_swallowed hb hu hi

theorem CommentLines.lt {t rest : List LChar} (h : CommentLines t rest) : rest.length < t.length := by
  induction h with
  | last _ hl =>
    have := hl.suffix.length_le
    simp only [List.length_append, List.length_cons]
    omega
  | more _ hl _ _ ih =>
    have := hl.suffix.length_le
    simp only [List.length_append, List.length_cons] at *
    omega

/-- A header is skipped. -/
theorem Headed.proc {fs : Fs} {body : List LChar} (h : Headed t body) (hi : i.At P t) {p : PState} {st : St} :
    ∃ j, j.At P body ∧ ∀ p' st', Proc fs j p st p' st' → Proc fs i p st p' st' := by
  cases h with
  | none => exact ⟨i, hi, fun _ _ h => h⟩
  | comments hc hf =>
    obtain ⟨j, hj, hp⟩ := parseLine_comments hc hf hi
    exact ⟨j, hj, fun p' st' h => .trans 0 hi hj hc.lt (fun n _ => hp fs _ p st) h⟩

theorem Headed.free {body : List LChar} (h : Headed t body) : Free '#' body := by
  cases h with
  | none h => exact h
  | comments _ h => exact h

end Hastur
