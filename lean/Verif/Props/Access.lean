import Verif.Spec.Errors
import Verif.Props.Blocks
/-
C67: positions, takes and splits with non-empty first part.  C68: errors with positions.
-/
namespace Hastur

open Res Span

/-! ### C67 -/

/-- The position of the first character that satisfies a predicate, and nothing exactly when there is none. -/
theorem C67_position (s : Span) (h : s.WF) (p : Char → Bool) :
    (∀ n, s.position p = .ok (some n) ↔
      (∃ c, s.text[n]? = some c ∧ p c = true) ∧ ∀ k < n, ∀ c, s.text[k]? = some c → p c = false) ∧
    (s.position p = .ok none ↔ ∀ c ∈ s.text, p c = false) ∧ ∃ r, s.position p = .ok r := by
  have key : s.position p = .ok (s.text.findIdx? p) := by
    unfold position
    rw [chars_eq h]
    simp only
    cases s.text.findIdx? p <;> rfl
  rw [key]
  refine ⟨fun n => ?_, ?_, _, rfl⟩
  · rw [Res.ok.injEq, List.findIdx?_eq_some_iff_getElem]
    constructor
    · rintro ⟨h1, h2, h3⟩
      refine ⟨⟨_, List.getElem?_eq_getElem h1, h2⟩, fun k hk c hc => ?_⟩
      obtain ⟨h4, rfl⟩ := List.getElem?_eq_some_iff.mp hc
      simpa using h3 k hk
    · rintro ⟨⟨c, h1, h2⟩, h3⟩
      obtain ⟨h4, rfl⟩ := List.getElem?_eq_some_iff.mp h1
      refine ⟨h4, h2, fun k hk => ?_⟩
      simpa using h3 k hk _ (List.getElem?_eq_getElem (by omega))
  · rw [Res.ok.injEq, List.findIdx?_eq_none_iff]

/-- A span is split exactly at the position. -/
theorem C67_position_splits (s : Span) (h : s.WF) (p : Char → Bool) (n : Nat) (hn : s.position p = .ok (some n)) :
    ∃ rest pre, s.splitAtPosition p = .ok (rest, pre) ∧ pre.length = n ∧ pre.ltext = s.ltext.take n ∧
      rest.ltext = s.ltext.drop n := by
  obtain ⟨⟨c, h1, h2⟩, h3⟩ := (C67_position s h p).1 n |>.mp hn
  have hle : stopIdx p s.text ≤ s.length := by rw [← text_length h]; exact stopIdx_le p s.text
  have hstop : stopIdx p s.text = n := by
    clear hn hle
    generalize s.text = t at h1 h3
    unfold stopIdx
    induction t generalizing n with
    | nil => simp at h1
    | cons x t ih =>
      cases n with
      | zero =>
        simp only [List.getElem?_cons_zero, Option.some.injEq] at h1
        subst h1
        simp [h2]
      | succ n =>
        have hx := h3 0 (by omega) x rfl
        have := ih n (by simpa using h1) (fun k hk c hc => h3 (k + 1) (by omega) c (by simpa using hc))
        simp [hx, this]
  rw [hstop] at hle
  have he := splitAtPosition_eq h p
  rw [hstop] at he
  exact ⟨_, _, he, rfl, sliceTo_ltext hle, restAt_ltext h n⟩

/-- Taking the first characters; more than there are is an assertion failure. -/
theorem C67_take (s : Span) (h : s.WF) (n : Nat) :
    (n ≤ s.length → ∃ t, s.take n = .ok t ∧ t.WF ∧ t.ltext = s.ltext.take n) ∧
    (s.length < n → s.take n = .panic .assertion) := by
  unfold take
  refine ⟨fun hn => ⟨s.sliceTo n, ?_, sliceTo_wf h hn, sliceTo_ltext hn⟩, fun hn => ?_⟩
  · simp [rassert, hn]
  · simp [rassert, Nat.not_le.mpr hn]

/-- Splitting with a non-empty first part: an error exactly when the first part would be empty, otherwise the longest
part without a character that satisfies the predicate, and the rest. -/
theorem C67_split1 (s : Span) (h : s.WF) (p : Char → Bool) :
    ((s.text = [] ∨ ∃ c t, s.text = c :: t ∧ p c = true) → s.splitAtPosition1 p = .ok none) ∧
    ((∃ c t, s.text = c :: t ∧ p c = false) → ∃ rest pre, s.splitAtPosition1 p = .ok (some (rest, pre)) ∧
      s.splitAtPosition p = .ok (rest, pre) ∧ pre.text ≠ [] ∧ pre.ltext ++ rest.ltext = s.ltext ∧
      (∀ c ∈ pre.text, p c = false) ∧ ∀ c ∈ rest.text.head?, p c = true) := by
  have hl := text_length h
  have hle := stopIdx_le p s.text
  constructor
  · rintro (h0 | ⟨c, t, h0, hc⟩)
    · unfold splitAtPosition1
      rw [findChar_eq h p, Res.ok_bind, dif_neg (by simp [h0])]
      have : s.length = 0 := by rw [← hl, h0]; rfl
      simp [this]
    · unfold splitAtPosition1
      have hs : stopIdx p s.text = 0 := by simp [h0, stopIdx, hc]
      rw [findChar_eq h p, Res.ok_bind, dif_pos (by rw [hs, h0]; simp)]
      simp [hs]
  · rintro ⟨c, t, h0, hc⟩
    have hs : 0 < stopIdx p s.text := by simp [h0, stopIdx, hc]
    have hle' : stopIdx p s.text ≤ s.length := by omega
    refine ⟨s.restAt (stopIdx p s.text), s.sliceTo (stopIdx p s.text), ?_, splitAtPosition_eq h p, ?_, ?_, ?_, ?_⟩
    · unfold splitAtPosition1
      rw [findChar_eq h p, Res.ok_bind]
      by_cases hs' : stopIdx p s.text < s.text.length
      · rw [dif_pos hs']
        obtain ⟨k, hk⟩ := Nat.exists_eq_succ_of_ne_zero (Nat.pos_iff_ne_zero.mp hs)
        simp only [hk]
        rw [sliceFrom_eq h (by omega)]
        have : k + 1 < s.length := by omega
        simp [restAt, this]
      · rw [dif_neg hs']
        have he : stopIdx p s.text = s.length := by omega
        have : s.length ≠ 0 := by omega
        simp [restAt, he, sliceTo, this]
    · rw [sliceTo_text hle', take_stopIdx, h0]
      simp [hc]
    · rw [sliceTo_ltext hle', restAt_ltext h, List.take_append_drop]
    · rw [sliceTo_text hle', take_stopIdx]
      intro c hc
      simpa using List.all_eq_true.mp (List.all_takeWhile (p := fun c => !p c) (l := s.text)) c hc
    · have : (s.restAt (stopIdx p s.text)).text = s.text.dropWhile fun c => !p c := by
        rw [← drop_stopIdx]
        simp [text, textOf, restAt_ltext h, List.map_drop]
      rw [this]
      intro c hc
      have := List.head?_dropWhile_not (fun c => !p c) s.text
      rw [Option.mem_def.mp hc] at this
      simpa using this

/-- The characters of a reference, with the number of bytes before each. -/
theorem C67_char_indices (c : CRef) (h : CRef.WF c) :
    ∃ l, c.charIndices = .ok l ∧ l.map Prod.snd = textOf (CRef.ltext c) ∧
      ∀ k (x : Nat × Char), l[k]? = some x → x.1 = k := by
  refine ⟨withIndices 0 (textOf (CRef.ltext c)), ?_, (C13_indices_are_byte_offsets _).1, ?_⟩
  · unfold CRef.charIndices
    rw [CRef.chars_eq c h]
    rfl
  · intro k x hx
    rw [withIndices_eq 0 (CRef.ltext_ascii c h), indexed] at hx
    rw [List.getElem?_map, List.getElem?_zipIdx] at hx
    simp only [Option.map_map, Option.map_eq_some_iff, Function.comp] at hx
    obtain ⟨a, _, rfl⟩ := hx
    simp

example : Example.block.span.position (· == 'y') = .ok (some 3) ∧ Example.block.span.position (· == 'q') = .ok none ∧
    Example.block.span.splitAtPosition1 (· == 'b') = .ok none := by
  have ht : Example.block.span.text = "bx\nyab".toList := by decide
  have hw := Block.span_wf Example.block_wf
  refine ⟨((C67_position _ hw _).1 3).mpr ⟨⟨'y', by rw [ht]; rfl, rfl⟩, ?_⟩, (C67_position _ hw _).2.1.mpr ?_,
    (C67_split1 _ hw _).1 (.inr ⟨'b', "x\nyab".toList, ht, rfl⟩)⟩
  · rw [ht]; decide
  · rw [ht]; decide

/-! ### C68 -/

variable {ι κ ε : Type}

/-- Lifting an error to another line keeps its severity and what it reports, and puts it all at the line. -/
theorem C68_lift (loc : κ) (e : VErr ι ε) :
    (e.lift loc).severity = e.severity ∧ (e.lift loc).entries = e.entries.map fun x => (loc, x.2) := by
  cases e with
  | incomplete => exact ⟨rfl, rfl⟩
  | error c => cases c <;> exact ⟨rfl, rfl⟩
  | failure c => cases c <;> exact ⟨rfl, rfl⟩

/-- Adding a report: it comes last, and only an incomplete error changes its severity, to a failure. -/
theorem C68_add (i : ι) (k : ε) (e : VErr ι ε) :
    (e.addError i k).entries = e.entries ++ [(i, k)] ∧
    (e.severity ≠ .incomplete → (e.addError i k).severity = e.severity) ∧
    (e.severity = .incomplete → (e.addError i k).severity = .hard) := by
  cases e with
  | incomplete => exact ⟨rfl, fun h => absurd rfl h, fun _ => rfl⟩
  | error c => cases c <;> exact ⟨rfl, fun _ => rfl, fun h => by cases h⟩
  | failure c => cases c <;> exact ⟨rfl, fun _ => rfl, fun h => by cases h⟩

/-- Turning an error into a failure: what it reports stays, and only an incomplete error panics. -/
theorem C68_as_failure (e : VErr ι ε) :
    (e.severity = .incomplete → e.asFailure = .panic .explicit) ∧
    (e.severity ≠ .incomplete → ∃ f, e.asFailure = .ok f ∧ f.severity = .hard ∧ f.entries = e.entries) := by
  cases e with
  | incomplete => exact ⟨fun _ => rfl, fun h => absurd rfl h⟩
  | error c => exact ⟨fun h => by (cases h), fun _ => ⟨_, rfl, rfl, rfl⟩⟩
  | failure c => exact ⟨fun h => by (cases h), fun _ => ⟨_, rfl, rfl, rfl⟩⟩

/-- An error lifted twice is at the outer line only; a report added inside is lifted with the others. -/
theorem C68_nested (loc : ι) (out : κ) (k : ε) (e : VErr ι ε) :
    ((e.lift loc).lift out).entries = (e.lift out).entries ∧
    ((e.addError loc k).lift out).entries = ((e.lift out).addError out k).entries := by
  constructor
  · simp [C68_lift]
  · simp [C68_lift, C68_add]

/-- An error of a collapsed line, with a report added and made a failure, is a failure at the line that keeps the first
report first. -/
example : ∃ f, ((VErr.error (.code 3 'a')).lift 10 |>.addError 11 'b').asFailure = .ok f ∧ f.severity = .hard ∧
    f.entries = [(10, 'a'), (11, 'b')] := ⟨_, rfl, rfl, rfl⟩

end Hastur
