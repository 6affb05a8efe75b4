import Mathlib.Data.List.TakeWhile
import Verif.Proofs.At
import Verif.Model.Eval
/-
Lemmas: spans reached by slicing, the offset between them, and the search for the last occurrence of a character
(`many1!(take_until_and_consume!(c))`).
-/
namespace Hastur

open Res

/-- The span `r` is what is left of `i` after dropping `n` characters, in one or several steps. -/
structure Span.Tail (i : Span) (n : Nat) (r : Span) : Prop where
  parent : r.parent = i.parent
  start : ∃ k, r.start = i.start + k ∧ (k = 0 ∨ k < i.contents.length) ∧
    lensum (i.contents.take k) + r.offset = i.offset + n
  length : r.length + n = i.length

namespace Span.Tail

theorem refl (i : Span) : i.Tail 0 i := ⟨rfl, ⟨0, rfl, .inl rfl, by simp⟩, rfl⟩

theorem trans {i r q : Span} {m n : Nat} (h : i.Tail m r) (h' : r.Tail n q) : i.Tail (m + n) q := by
  obtain ⟨p, ⟨k, s1, s2, s3⟩, l⟩ := h
  obtain ⟨p', ⟨k', s1', s2', s3'⟩, l'⟩ := h'
  have hc : r.contents = i.contents.drop k := by
    simp only [Span.contents, p, s1, List.drop_drop]
  rw [hc] at s2' s3'
  refine ⟨p'.trans p, ⟨k + k', by omega, ?_, ?_⟩, by omega⟩
  · rw [List.length_drop] at s2'; omega
  · rw [List.take_add]
    simp only [lensum, List.map_append, List.sum_append] at s3 s3' ⊢
    omega

theorem sliceFrom {s r : Span} (h : s.WF) {n : Nat} (hn : n ≤ s.length) (hs : s.sliceFrom n = .ok r) :
    s.Tail n r := by
  unfold Span.sliceFrom at hs
  rw [usub_of_le hn, Res.ok_bind] at hs
  unfold Span.revalidate at hs
  by_cases h0 : s.length - n = 0
  · simp only [h0, if_true, Res.ok.injEq] at hs
    subst hs
    exact ⟨rfl, ⟨0, rfl, .inl rfl, by simp⟩, by simp; omega⟩
  · simp only [h0, if_false] at hs
    have hb := h.bound.resolve_left (by omega)
    obtain ⟨k, c, rest, o, h1, h2, h3, h4, h5, h6⟩ :=
      revalLoop_spec (wf_contents h.1) s.start (s.offset + n) (by omega)
    have hc : Span.contents { s with offset := s.offset + n, length := s.length - n } = s.contents := rfl
    rw [hc, h1] at hs
    simp only [Res.ok_bind, Res.pure_eq, Res.ok.injEq] at hs
    subst hs
    refine ⟨rfl, ⟨k, rfl, .inr ?_, by simpa using h4⟩, by simp; omega⟩
    have := congrArg List.length h2
    simp at this; omega

/-- The code's `offset` between a span and its tail: right when the tail starts in the same reference, too small by the
position inside the reference otherwise. -/
theorem offsetTo {i r : Span} {n : Nat} (hg : i.Good) (h0 : i.length ≠ 0) (h : i.Tail n r) :
    i.offsetTo r = .ok (if r.start = i.start then n else n - r.offset) ∧ (r.start ≠ i.start → r.offset ≤ n) := by
  obtain ⟨c, cs, e1, e2, e3⟩ := hg.2.resolve_left h0
  obtain ⟨_, ⟨k, s1, s2, s3⟩, _⟩ := h
  have hk : k ≤ i.contents.length := by omega
  simp only [Span.offsetTo]
  rw [rassert_of (by simp; omega), Res.ok_bind, rassert_of (by simp; omega), Res.ok_bind]
  by_cases hk0 : k = 0
  · subst hk0
    simp at s3
    rw [if_pos (by omega), if_pos (by omega), usub_of_le (by omega)]
    exact ⟨by congr 1; omega, by omega⟩
  · rw [if_neg (by omega), if_neg (by omega), e1]
    obtain ⟨j, rfl⟩ : ∃ j, k = j + 1 := ⟨k - 1, by omega⟩
    rw [e1] at s3
    simp only [List.take_succ_cons, lensum_cons] at s3
    simp only
    rw [usub_of_le (by omega), Res.ok_bind, walkLengths_eq, show r.start - i.start - 1 = j by omega]
    refine ⟨by simp only [Res.pure_eq]; congr 1; omega, fun _ => by omega⟩

/-- In a block with one reference the offset is right. -/
theorem offsetTo_single {i r : Span} {n : Nat} (hg : i.Good) (h0 : i.length ≠ 0) (h : i.Tail n r)
    (h1 : i.contents.length ≤ 1) : i.offsetTo r = .ok n := by
  rw [(h.offsetTo hg h0).1, if_pos]
  obtain ⟨_, ⟨k, s1, s2, s3⟩, _⟩ := h
  omega

end Span.Tail

namespace Nom

open Span

variable {P : Block} {t : List LChar} {i : Span}

theorem takeUntilAndConsume_at (h : i.At P t) {c : Char} (hc : isAscii c = true) :
    (c ∈ textOf t → ∃ r q, takeUntilAndConsume [c] i = .ok (.done r q) ∧
        r.At P (t.drop (((textOf t).takeWhile (fun x => x != c)).length + 1)) ∧
        i.Tail (((textOf t).takeWhile (fun x => x != c)).length + 1) r) ∧
      (c ∉ textOf t → takeUntilAndConsume [c] i = .ok (.err (.error .code))) := by
  unfold takeUntilAndConsume
  rw [h.find hc, Res.ok_bind]
  constructor
  · intro hm
    rw [if_pos hm]
    have hlt : ((textOf t).takeWhile (fun x => x != c)).length < t.length := by
      rw [← textOf_length t]
      by_contra hge
      have e := List.takeWhile_prefix (fun x => x != c) (l := textOf t) |>.eq_of_length_le (by omega)
      have hc' : c ∈ (textOf t).takeWhile (fun x => x != c) := by rw [e]; exact hm
      have := List.mem_takeWhile_imp hc'
      simp at this
    have hb : blen [c] = 1 := by simp [blen, utf8Size_ascii hc]
    obtain ⟨r, h1, h2⟩ := h.sliceFrom (n := ((textOf t).takeWhile (fun x => x != c)).length + 1) (by omega)
    obtain ⟨q, h3, _⟩ := h.slice (a := 0) (b := ((textOf t).takeWhile (fun x => x != c)).length) (by omega) (by omega)
    refine ⟨r, q, ?_, h2, Span.Tail.sliceFrom h.good.wf (by rw [h.length]; omega) h1⟩
    simp only [hb, h1, h3, Res.ok_bind]
    rfl
  · intro hm
    rw [if_neg hm]
    rfl

theorem takeWhile_split {c : Char} {t : List LChar} (hm : c ∈ textOf t) :
    ∃ a l b, t = a ++ (c, l) :: b ∧ c ∉ textOf a ∧ ((textOf t).takeWhile (fun x => x != c)).length = a.length := by
  induction t with
  | nil => simp at hm
  | cons x t ih =>
    by_cases hx : x.1 = c
    · exact ⟨[], x.2, t, by rw [← hx]; rfl, by simp, by simp [hx]⟩
    · have hm' : c ∈ textOf t := by
        simp only [textOf_cons, List.mem_cons] at hm
        exact hm.resolve_left fun e => hx e.symm
      obtain ⟨a, l, b, h1, h2, h3⟩ := ih hm'
      refine ⟨x :: a, l, b, by rw [h1]; rfl, ?_, by simp [hx, h3]⟩
      simp only [textOf_cons, List.mem_cons, not_or]
      exact ⟨fun e => hx e.symm, h2⟩

theorem many1Loop_consume (c : Char) (hc : isAscii c = true) (n : Nat) : ∀ {t : List LChar} {i : Span}, i.At P t →
    t.length < n → ∃ r u v, many1Loop (takeUntilAndConsume [c]) n i = .ok (.done r ()) ∧ t = u ++ v ∧ r.At P v ∧
      c ∉ textOf v ∧ i.Tail u.length r ∧ (u = [] ∨ ∃ u' l, u = u' ++ [(c, l)]) := by
  induction n with
  | zero => intro t i _ h; omega
  | succ n ih =>
    intro t i h hl
    unfold many1Loop
    by_cases hm : c ∈ textOf t
    · obtain ⟨r, q, h1, h2, h3⟩ := (takeUntilAndConsume_at h hc).1 hm
      obtain ⟨a, l, b, e1, e2, e3⟩ := takeWhile_split hm
      rw [e3] at h2 h3
      have hd : t.drop (a.length + 1) = b := by
        rw [e1, ← List.drop_drop]; simp
      rw [hd] at h2
      have hlen : b.length < t.length := by rw [e1]; simp; omega
      obtain ⟨r', u, v, g1, g2, g3, g4, g5, g6⟩ := ih h2 (by omega)
      refine ⟨r', a ++ [(c, l)] ++ u, v, ?_, by rw [e1, g2]; simp, g3, g4, ?_, .inr ?_⟩
      · rw [h1]
        simp only [Res.ok_bind]
        rw [if_neg (by rw [h.length, h2.length]; omega)]
        exact g1
      · have := h3.trans g5
        simpa [Nat.add_comm, Nat.add_left_comm] using this
      · rcases g6 with rfl | ⟨u', l', rfl⟩
        · exact ⟨a, l, by simp⟩
        · exact ⟨a ++ (c, l) :: u', l', by simp⟩
    · rw [(takeUntilAndConsume_at h hc).2 hm]
      exact ⟨i, [], t, rfl, rfl, h, hm, Span.Tail.refl i, .inl rfl⟩

/-- `many1!(take_until_and_consume!(c))` consumes everything up to and including the last `c`. -/
theorem many1_consume {c : Char} (hc : isAscii c = true) (h : i.At P t) :
    (c ∈ textOf t → ∃ r u l v, many1 (takeUntilAndConsume [c]) i = .ok (.done r ()) ∧ t = u ++ (c, l) :: v ∧ r.At P v ∧
        c ∉ textOf v ∧ i.Tail (u.length + 1) r) ∧
      (c ∉ textOf t → many1 (takeUntilAndConsume [c]) i = .ok (.err (.error .code))) := by
  unfold many1
  constructor
  · intro hm
    obtain ⟨r, q, h1, h2, h3⟩ := (takeUntilAndConsume_at h hc).1 hm
    obtain ⟨a, l, b, e1, e2, e3⟩ := takeWhile_split hm
    rw [e3] at h2 h3
    have hd : t.drop (a.length + 1) = b := by
      rw [e1, ← List.drop_drop]; simp
    rw [hd] at h2
    obtain ⟨r', u, v, g1, g2, g3, g4, g5, g6⟩ := many1Loop_consume c hc (r.length + 1) h2 (by rw [h2.length]; omega)
    rw [h1]
    simp only [Res.ok_bind]
    have ht := h3.trans g5
    rcases g6 with rfl | ⟨u', l', rfl⟩
    · exact ⟨r', a, l, v, g1, by rw [e1, g2]; simp, g3, g4, by simpa using ht⟩
    · refine ⟨r', a ++ (c, l) :: u', l', v, g1, by rw [e1, g2]; simp, g3, g4, ?_⟩
      simpa [Nat.add_comm, Nat.add_left_comm] using ht
  · intro hm
    rw [(takeUntilAndConsume_at h hc).2 hm]
    rfl

/-- `recognize!` around it. -/
theorem recognize_consume {c : Char} (hc : isAscii c = true) (h : i.At P t) :
    (c ∈ textOf t → ∃ r u l v n, recognize (many1 (takeUntilAndConsume [c])) i = .ok (.done r (i.sliceTo n)) ∧
        t = u ++ (c, l) :: v ∧ r.At P v ∧ c ∉ textOf v ∧ i.Tail (u.length + 1) r ∧
        n = (if r.start = i.start then u.length + 1 else u.length + 1 - r.offset)) ∧
      (c ∉ textOf t → recognize (many1 (takeUntilAndConsume [c])) i = .ok (.err (.error .code))) := by
  unfold recognize
  constructor
  · intro hm
    obtain ⟨r, u, l, v, h1, h2, h3, h4, h5⟩ := (many1_consume hc h).1 hm
    have h0 : i.length ≠ 0 := by rw [h.length, h2]; simp
    rw [h1, done_andThen, (h5.offsetTo h.good h0).1]
    exact ⟨r, u, l, v, _, rfl, h2, h3, h4, h5, rfl⟩
  · intro hm
    rw [(many1_consume hc h).2 hm]
    rfl

end Nom

end Hastur
