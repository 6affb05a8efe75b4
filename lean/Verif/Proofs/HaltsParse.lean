import Verif.Proofs.Halts
import Verif.Proofs.Search
/-
Lemmas: the loops of the line and expression parsers end.
-/
namespace Hastur

open Res

namespace Nom

theorem tag_sat (w : Str) (i : Span) : (tag w i).SatP fun r q => r.length + blen w = i.length ∧ r.Norm ∧ q.length = blen w := by
  refine Sat.bind (compare_sat _ _) fun c _ _ => ?_
  cases c with
  | ok => exact (takeSplit_sat _ _).bind fun p _ h => SatP.done ⟨h.1, h.2.1, by rw [h.2.2]; rfl⟩
  | incomplete => exact SatP.err
  | error => exact SatP.err

theorem tagNoCase_sat (w : Str) (i : Span) :
    (tagNoCase w i).SatP fun r q => r.length + blen w = i.length ∧ r.Norm ∧ q.length = blen w := by
  refine Sat.bind (compareNoCase_sat _ _) fun c _ _ => ?_
  cases c with
  | ok => exact (takeSplit_sat _ _).bind fun p _ h => SatP.done ⟨h.1, h.2.1, by rw [h.2.2]; rfl⟩
  | incomplete => exact SatP.err
  | error => exact SatP.err

theorem char_sat (c : Char) (i : Span) : (char c i).SatP fun r _ => r.length < i.length ∧ r.Norm := by
  refine Sat.bind (firstChar_sat _) fun o _ _ => ?_
  cases o with
  | none => exact SatP.err
  | some d =>
    refine .ite (fun _ => (sliceFrom_sat _ _).bind fun r _ h => SatP.done ⟨?_, h.2⟩) fun _ => SatP.err
    have := c.utf8Size_pos
    omega

/-- When `char!` fails, the first character is another one. -/
theorem char_err {c : Char} {i : Span} {e : NErr} (h : char c i = .ok (.err e)) : i.chars.items.head? ≠ some c := by
  intro hc
  have hf : firstChar i = .ok (some c) := by
    unfold firstChar
    revert hc
    generalize i.chars = x
    intro hc
    obtain ⟨items, crash⟩ := x
    cases items with
    | nil => cases hc
    | cons d ds => cases hc; rfl
  unfold char at h
  rw [hf, ok_bind] at h
  simp only [if_true] at h
  obtain ⟨r, _, h2⟩ := Res.bind_eq_ok.mp h
  cases h2

theorem take_sat (n : Nat) (i : Span) : (take n i).SatP fun r q => r.length + n = i.length ∧ r.Norm ∧ q.length = n :=
  .ite (fun _ => (takeSplit_sat _ _).bind fun p _ h => SatP.done ⟨h.1, h.2.1, by rw [h.2.2]; rfl⟩) fun _ => SatP.err

theorem takeUntil_sat (w : Str) (i : Span) : (takeUntil w i).SatP fun r q => r.length + q.length = i.length ∧ r.Norm ∧
    (q.length = 0 → i.findSubstring w = .ok (some 0)) := by
  refine Sat.bind (findSubstring_sat _ _) fun o ho _ => ?_
  cases o with
  | none => exact SatP.err
  | some k =>
    refine (takeSplit_sat _ _).bind fun p _ h => SatP.done ⟨?_, h.2.1, fun hq => ?_⟩
    · rw [h.2.2]; exact h.1
    · rw [h.2.2] at hq
      have : k = 0 := hq
      rw [ho, this]

theorem takeUntilAndConsume_sat (w : Str) (i : Span) : (takeUntilAndConsume w i).SatP fun r _ => r.length ≤ i.length ∧ r.Norm := by
  refine Sat.bind (findSubstring_sat _ _) fun o ho _ => ?_
  cases o with
  | none => exact SatP.err
  | some k => exact (sliceFrom_sat _ _).bind fun r _ h => (slice_sat _ _ _).bind fun _ _ _ => SatP.done ⟨by omega, h.2⟩

theorem eof_sat (i : Span) : (eof i).SatP fun r _ => r = i := .ite (fun _ => SatP.done rfl) fun _ => SatP.err

theorem rest_sat (i : Span) : (rest i).SatP fun r q => r.length = 0 ∧ r.Norm ∧ q = i :=
  Sat.bind (sliceFrom_sat _ _) fun _ _ h => SatP.done ⟨by omega, h.2, rfl⟩

/-- Splitting at a character. -/
theorem takeTill_sat (p : Char → Bool) (i : Span) : (takeTill p i).SatP fun r q =>
    r.length ≤ i.length ∧ r.Norm ∧ q.length ≤ i.length ∧ (i.Norm → r.length = i.length → i.length ≠ 0 → r = i ∧
      ∃ c, i.findChar p = .ok (some (0, c))) := by
  refine Sat.bind (splitAtPosition_sat i p) fun x _ h => ?_
  rcases h with ⟨k, c, h1, h2, h3, h4, h5⟩ | ⟨_, h2, h3⟩
  · refine SatP.done ⟨by omega, h4, by rw [h5]; show k ≤ _; omega, fun hn hl h0 => ?_⟩
    have : k = 0 := by omega
    subst this
    rw [sliceFrom_zero hn] at h2
    exact ⟨(Res.ok.inj h2).symm, c, h1⟩
  · refine SatP.done ⟨by rw [h2]; exact Nat.zero_le _, by rw [h2]; exact emptyAtEnd_norm _, Nat.le_of_eq (by rw [h3]), fun _ hl h0 => ?_⟩
    rw [h2] at hl
    exact absurd hl.symm h0

theorem takeWhile_sat (p : Char → Bool) (i : Span) : (takeWhile p i).SatP fun r q =>
    r.length ≤ i.length ∧ r.Norm ∧ q.length ≤ i.length ∧ (i.Norm → r.length = i.length → i.length ≠ 0 → r = i ∧
      ∃ c, i.findChar (fun c => !p c) = .ok (some (0, c))) := takeTill_sat _ _

theorem recognize_sat {α : Type} {p : Span → PRes α} {i : Span} {Q : Span → Prop} (h : (p i).SatP fun r _ => Q r) :
    (recognize p i).SatP fun r _ => Q r :=
  h.andThen fun _ _ _ hr => Sat.bind (offsetTo_sat _ _) fun _ _ _ => SatP.done hr

theorem many1Loop_sat {α : Type} {p : Span → PRes α} (h : ∀ i, (p i).SatP fun r _ => r.length ≤ i.length) (n : Nat) :
    ∀ i : Span, i.length < n → (many1Loop p n i).SatP fun r _ => r.length ≤ i.length := by
  induction n with
  | zero => intro i hi; omega
  | succ n ih =>
    intro i hi
    refine Sat.bind (h i) fun a _ ha => ?_
    cases a with
    | err e => cases e with
      | error k => exact SatP.done (Nat.le_refl _)
      | failure k => exact SatP.err
    | done r a =>
      have ha : r.length ≤ i.length := ha
      exact .ite (fun _ => SatP.done (Nat.le_refl _)) fun hne => (ih r (by omega)).imp fun _ _ h => by omega

theorem many1_sat {α : Type} {p : Span → PRes α} (h : ∀ i, (p i).SatP fun r _ => r.length ≤ i.length) (i : Span) :
    (many1 p i).SatP fun r _ => r.length ≤ i.length := by
  refine Sat.bind (h i) fun a _ ha => ?_
  cases a with
  | err e => cases e with
    | error k => exact SatP.err
    | failure k => exact SatP.err
  | done r a =>
    have ha : r.length ≤ i.length := ha
    exact (many1Loop_sat h _ r (by omega)).imp fun _ _ h => by omega

end Nom

open Nom

theorem whitespace_sat (i : Span) : (whitespace i).SatP fun r q =>
    r.length ≤ i.length ∧ r.Norm ∧ q.length ≤ i.length ∧ (i.Norm → r.length = i.length → i.length ≠ 0 → r = i ∧
      ∃ c, i.findChar (fun c => !isBlank c) = .ok (some (0, c))) := takeTill_sat _ _

/-! ### `many0!(makefile_whitespace)` -/

theorem whitespace_empty {i : Span} (h : i.length = 0) : whitespace i = .ok (.done i.emptyAtEnd i) := by
  unfold whitespace takeTill Span.splitAtPosition Span.findChar
  rw [chars_zero h]
  rfl

theorem sameSpan_self (i : Span) : sameSpan i i = true := by simp [sameSpan]

theorem many0_end (n : Nat) (i : Span) (h : 0 < n) : (many0Loop whitespace n i.emptyAtEnd).SatP fun r _ => r.length = 0 := by
  obtain ⟨n, rfl⟩ : ∃ m, n = m + 1 := ⟨n - 1, by omega⟩
  unfold many0Loop
  rw [whitespace_empty rfl, ok_bind]
  simp only
  rw [if_pos (show sameSpan i.emptyAtEnd.emptyAtEnd i.emptyAtEnd = true from sameSpan_self i.emptyAtEnd)]
  exact SatP.done rfl

theorem many0_norm (n : Nat) : ∀ i : Span, i.Norm → i.length + 2 ≤ n →
    (many0Loop whitespace n i).SatP fun r _ => r.length ≤ i.length := by
  induction n with
  | zero => intro i _ h; omega
  | succ n ih =>
    intro i hi hn
    by_cases h0 : i.length = 0
    · unfold many0Loop
      rw [whitespace_empty h0, ok_bind]
      simp only
      exact .ite (fun _ => SatP.done (Nat.le_refl _)) fun _ => (many0_end n i (by omega)).imp fun _ _ h => by omega
    · refine Sat.bind (whitespace_sat i) fun a _ ha => ?_
      cases a with
      | err e => cases e with
        | error k => exact SatP.done (Nat.le_refl _)
        | failure k => exact SatP.err
      | done r q =>
        obtain ⟨h1, h2, _, h3⟩ := ha
        refine .ite (fun _ => SatP.done (Nat.le_refl _)) fun hne => ?_
        by_cases hl : r.length = i.length
        · rw [(h3 hi hl h0).1, sameSpan_self] at hne
          exact absurd rfl hne
        · exact (ih r h2 (by omega)).imp fun _ _ h => by omega

theorem many0_sat (i : Span) : (many0 whitespace i).SatP fun r _ => r.length ≤ i.length := by
  unfold many0
  show (many0Loop whitespace ((i.length + 2) + 1) i).SatP _
  refine Sat.bind (whitespace_sat i) fun a _ ha => ?_
  cases a with
  | err e => cases e with
    | error k => exact SatP.done (Nat.le_refl _)
    | failure k => exact SatP.err
  | done r q =>
    obtain ⟨h1, h2, _⟩ := ha
    exact .ite (fun _ => SatP.done (Nat.le_refl _)) fun _ => (many0_norm _ r h2 (by omega)).imp fun _ _ h => by omega

/-! ### Lines -/

theorem encode_hash {c : Char} (h : String.utf8EncodeChar c = [35]) : c = '#' := by
  have h2 := congrArg List.length h
  rw [String.length_utf8EncodeChar] at h2
  have h3 : c.utf8Size = 1 := h2
  have ha : isAscii c = true := by
    unfold isAscii
    unfold Char.utf8Size at h3
    simp only at h3
    split at h3
    · rename_i h4
      simp only [decide_eq_true_eq]
      exact Nat.lt_of_le_of_lt h4 (by decide)
    · split at h3
      · cases h3
      · split at h3 <;> cases h3
  rw [utf8Encode_ascii ha] at h
  exact byteOf_inj ha (by decide) (List.cons.inj h).1

theorem hash_first {i : Span} (h : i.findSubstring ['#'] = .ok (some 0)) : i.chars.items.head? = some '#' := by
  unfold Span.findSubstring at h
  rw [show Span.bytesOf ['#'] = [35] by decide] at h
  simp only [List.length_singleton] at h
  revert h
  generalize i.chars = x
  obtain ⟨items, crash⟩ := x
  intro h
  split at h
  · cases h
  · obtain ⟨⟨buf, rest⟩, h1, h2⟩ := Res.bind_eq_ok.mp h
    simp only at h2
    split at h2
    · rename_i hb
      subst hb
      cases items with
      | nil =>
        simp only [Span.withIndices, Span.fillBuffer] at h1
        revert h1
        cases crash <;> simp
      | cons c cs =>
        simp only [Span.withIndices, Span.fillBuffer] at h1
        rw [if_pos (by decide)] at h1
        obtain ⟨buf2, h3, h4⟩ := Res.bind_eq_ok.mp h1
        cases hbs : String.utf8EncodeChar c with
        | nil =>
          have := congrArg List.length hbs
          rw [String.length_utf8EncodeChar] at this
          have := c.utf8Size_pos
          simp at *
        | cons b bs =>
          rw [hbs] at h3 h4
          cases bs with
          | cons b2 bs => simp [Span.writeAt] at h3
          | nil =>
            simp [Span.writeAt] at h3
            subst h3
            have : [b] = [(35 : UInt8)] := by
              simp at h4
              cases cs with
              | nil => simp [Span.withIndices, Span.fillBuffer] at h4; simp [h4.1]
              | cons d ds => simp [Span.withIndices, Span.fillBuffer] at h4; simp [h4.1]
            rw [this] at hbs
            rw [encode_hash hbs]
            rfl
    · exact absurd rfl ((searchLoop_sat _ _ _ _ _).2 _ h2)

theorem grabLine_sat (i : Span) : (grabLine i).SatP fun r x => r.length ≤ i.length ∧ r.Norm ∧ x.1.length ≤ i.length ∧
    (x.2 = .comment → r.length = i.length → x.1.length = 0 ∧ i.chars.items.head? = some '#') ∧
    (x.2 = .lineBreak → r.length < i.length) ∧ (x.2 = .eof → r.length = 0 ∧ x.1 = i) := by
  refine SatP.orElse ?_ fun _ => SatP.orElse ?_ fun _ => SatP.orElse ?_ fun _ => ?_
  · refine (takeUntil_sat _ _).mapP fun r q h => ⟨by omega, h.2.1, by simp only; omega, fun _ hl => ?_, by simp, by simp⟩
    have : q.length = 0 := by omega
    exact ⟨this, hash_first (h.2.2 this)⟩
  · refine (takeUntil_sat _ _).andThen fun r q _ h => (tag_sat _ _).mapP fun r' q' h' => ⟨by omega, h'.2.1, by simp only; omega, by simp, fun _ => ?_, by simp⟩
    have := h'.1
    have hb : blen ['\n'] = 1 := rfl
    omega
  · refine (takeUntil_sat _ _).andThen fun r q _ h => (tag_sat _ _).mapP fun r' q' h' => ⟨by omega, h'.2.1, by simp only; omega, by simp, fun _ => ?_, by simp⟩
    have := h'.1
    have hb : blen ['\r', '\n'] = 2 := rfl
    omega
  · exact (rest_sat _).mapP fun r q h => ⟨by omega, h.2.1, Nat.le_of_eq (by rw [h.2.2]), by simp, by simp, fun _ => ⟨h.1, h.2.2⟩⟩

theorem endsWithBackslash_sat (s : Span) : (endsWithBackslash s).Sat fun n => s.length = 0 → n = 0 := by
  refine (all_sat _).bind fun cs _ h => .ok fun h0 => ?_
  rw [chars_zero h0] at h
  subst h
  rfl

theorem cleanLineEnd_sat (mode : Compliance) (s : Span) (n : Nat) : (cleanLineEnd mode s n).Sat fun _ => True := by
  refine .ite (fun _ => ?_) fun _ => (usub_sat _ _).bind fun _ _ _ => .ok trivial
  cases mode with
  | gnu => exact .ite (fun _ => (slice_sat _ _ _).imp fun _ _ => trivial) fun _ => (all_sat _).bind fun _ _ _ => .ok trivial
  | posix => exact (usub_sat _ _).bind fun _ _ _ => .ok trivial

theorem lineLoop_sat (mode : Compliance) (n : Nat) : ∀ (i : Span) (lines : List CRef) (strip addSpace : Bool) (reason : LineEnd),
    i.Norm → i.length < n → (lineLoop mode n i lines strip addSpace reason).SatP fun r _ => r.length ≤ i.length ∧ r.Norm := by
  induction n with
  | zero => intro i _ _ _ _ _ h; omega
  | succ n ih =>
    intro i lines strip addSpace reason hi hn
    have hgrab : ((whitespace i).andThen fun i _ => grabLine i).SatP fun r x => r.length ≤ i.length ∧ r.Norm ∧
        (r.length = i.length → x.1.length = 0) := by
      refine (whitespace_sat i).andThen fun j _ _ hj => (grabLine_sat j).imp fun r x h => ⟨by omega, h.2.1, fun hl => ?_⟩
      obtain ⟨h1, h2, h3, h4, h5, h6⟩ := h
      have hjl : j.length = i.length := by omega
      cases hx : x.2 with
      | comment => exact (h4 hx (by omega)).1
      | lineBreak => have := h5 hx; omega
      | eof => rw [(h6 hx).2]; have := (h6 hx).1; omega
    unfold lineLoop
    generalize (if reason ≠ LineEnd.comment then
        if (addSpace && !strip) = true then (lines ++ [CRef.space], addSpace) else (lines, true)
      else (lines ++ [CRef.space], addSpace)) = y
    obtain ⟨lines, addSpace⟩ := y
    refine Sat.bind hgrab fun a _ ha => ?_
    cases a with
    | err e => cases e with
      | error k => exact Sat.bind (new_sat _ _) fun _ _ _ => SatP.done ⟨Nat.le_refl _, hi⟩
      | failure k => exact SatP.err
    | done r x =>
      obtain ⟨line, reason⟩ := x
      obtain ⟨h1, h0, h2⟩ := ha
      refine Sat.bind (endsWithBackslash_sat line) fun b _ hb => ?_
      refine .ite (fun _ => Sat.bind (toContentReference_sat _) fun _ _ _ => Sat.bind (new_sat _ _) fun _ _ _ => SatP.done ⟨h1, h0⟩) fun ho => ?_
      have hlt : r.length < i.length := by
        refine Nat.lt_of_not_le fun hge => ?_
        rw [hb (h2 (by omega))] at ho
        exact ho rfl
      refine Sat.bind (cleanLineEnd_sat _ _ _) fun line _ _ => .ite (fun _ => Sat.bind (toContentReference_sat _) fun _ _ _ => ?_) fun _ => ?_
      · exact (ih r _ _ _ _ h0 (by omega)).imp fun _ _ h => ⟨by omega, h.2⟩
      · exact (ih r _ _ _ _ h0 (by omega)).imp fun _ _ h => ⟨by omega, h.2⟩

theorem makefileLine_after {g : PRes (Span × LineEnd)} {n : Nat} (hg : g.SatP fun r _ => r.length ≤ n ∧ r.Norm) (mode : Compliance)
    (strip : Bool) :
    (g.andThen fun i (line, reason) => do
      let backslashes ← endsWithBackslash line
      if backslashes % 2 = 0 then do
        let c ← line.toContentReference
        let b ← Block.new [] [c]
        done i b
      else do
        let line ← cleanLineEnd mode line backslashes
        if line.length > 0 then do
          let c ← line.toContentReference
          lineLoop mode (i.length + 2) i [c] false true reason
        else lineLoop mode (i.length + 2) i [] strip true reason).SatP fun r _ => r.length ≤ n ∧ r.Norm := by
  refine hg.andThen fun r x _ h => ?_
  obtain ⟨line, reason⟩ := x
  refine Sat.bind (endsWithBackslash_sat line) fun b _ hb => ?_
  refine .ite (fun _ => Sat.bind (toContentReference_sat _) fun _ _ _ => Sat.bind (new_sat _ _) fun _ _ _ => SatP.done h) fun _ => ?_
  refine Sat.bind (cleanLineEnd_sat _ _ _) fun line _ _ => .ite (fun _ => Sat.bind (toContentReference_sat _) fun _ _ _ => ?_) fun _ => ?_
  · exact (lineLoop_sat _ _ r _ _ _ _ h.2 (by omega)).imp fun _ _ h => ⟨by omega, h.2⟩
  · exact (lineLoop_sat _ _ r _ _ _ _ h.2 (by omega)).imp fun _ _ h => ⟨by omega, h.2⟩

theorem makefileLine_sat (i : Span) (mode : Compliance) (strip : Bool) :
    (makefileLine i mode strip).SatP fun r _ => r.length ≤ i.length ∧ r.Norm := by
  refine makefileLine_after (n := i.length) ?_ mode strip
  exact .ite (fun _ => (whitespace_sat i).andThen fun j _ _ hj => (grabLine_sat j).imp fun r x h => ⟨by omega, h.2.1⟩)
    fun _ => (grabLine_sat i).imp fun r x h => ⟨h.1, h.2.1⟩

/-! ### Comments -/

/-- The parser never reports an error. -/
def NoErr {α : Type} (x : PRes α) : Prop := ∀ e, x ≠ .ok (.err e)

/-- The parser never reports an error that stops the alternatives. -/
def Soft {α : Type} (x : PRes α) : Prop := ∀ k, x ≠ .ok (.err (.failure k))

theorem NoErr.andThen {α β : Type} {x : PRes α} {f : Span → α → PRes β} (h : NoErr x) (hf : ∀ r a, NoErr (f r a)) : NoErr (x.andThen f) := by
  intro e he
  obtain ⟨a, h1, h2⟩ := Res.bind_eq_ok.mp he
  cases a with
  | done r a => exact hf r a e h2
  | err k => exact h k h1

theorem Soft.andThen {α β : Type} {x : PRes α} {f : Span → α → PRes β} (h : Soft x) (hf : ∀ r a, Soft (f r a)) : Soft (x.andThen f) := by
  intro e he
  obtain ⟨a, h1, h2⟩ := Res.bind_eq_ok.mp he
  cases a with
  | done r a => exact hf r a e h2
  | err k => cases h2; exact h _ h1

theorem NoErr.done {α : Type} {i : Span} {a : α} : NoErr (Res.done i a) := by intro e he; cases he

theorem Soft.done {α : Type} {i : Span} {a : α} : Soft (Res.done i a) := by intro e he; cases he

theorem NoErr.orElse {α : Type} {x y : PRes α} (hx : Soft x) (hy : NoErr y) : NoErr (Res.orElse x y) := by
  intro e he
  obtain ⟨a, h1, h2⟩ := Res.bind_eq_ok.mp he
  cases a with
  | done r a => cases h2
  | err k => cases k with
    | error k => exact hy e h2
    | failure k => exact hx k h1

theorem takeUntil_soft (w : Str) (i : Span) : Soft (takeUntil w i) := by
  intro k h
  obtain ⟨o, h1, h2⟩ := Res.bind_eq_ok.mp h
  cases o with
  | none => cases h2
  | some n =>
    obtain ⟨x, _, h4⟩ := Res.bind_eq_ok.mp h2
    cases h4

theorem tag_soft (w : Str) (i : Span) : Soft (tag w i) := by
  intro k h
  obtain ⟨o, h1, h2⟩ := Res.bind_eq_ok.mp h
  cases o with
  | ok =>
    obtain ⟨x, _, h4⟩ := Res.bind_eq_ok.mp h2
    cases h4
  | incomplete => cases h2
  | error => cases h2

theorem char_soft (c : Char) (i : Span) : Soft (char c i) := by
  intro k h
  obtain ⟨o, h1, h2⟩ := Res.bind_eq_ok.mp h
  cases o with
  | none => cases h2
  | some d =>
    simp only at h2
    split at h2
    · obtain ⟨x, _, h4⟩ := Res.bind_eq_ok.mp h2
      cases h4
    · cases h2

theorem Soft.mapP {α β : Type} {x : PRes α} {f : α → β} (h : Soft x) : Soft (x.mapP f) := h.andThen fun _ _ => .done

theorem rest_noErr (i : Span) : NoErr (rest i) := by
  intro e h
  obtain ⟨x, _, h4⟩ := Res.bind_eq_ok.mp h
  cases h4

theorem grabLine_noErr (i : Span) : NoErr (grabLine i) :=
  .orElse (takeUntil_soft _ _).mapP <| .orElse ((takeUntil_soft _ _).andThen fun _ _ => (tag_soft _ _).mapP) <|
    .orElse ((takeUntil_soft _ _).andThen fun _ _ => (tag_soft _ _).mapP) <| (rest_noErr _).andThen fun _ _ => .done

theorem commentLoop_noErr (n : Nat) : ∀ (i line : Span) (reason : LineEnd), NoErr (commentLoop n i line reason) := by
  induction n with
  | zero => intro i line reason e h; cases h
  | succ n ih =>
    intro i line reason e h
    obtain ⟨b, _, h2⟩ := Res.bind_eq_ok.mp h
    split at h2
    · exact NoErr.andThen (.orElse (char_soft _ _).mapP .done) (fun r _ => (grabLine_noErr r).andThen fun r x => ih _ _ _) e h2
    · cases h2

/-- If there is no comment, the text does not begin with a hash. -/
theorem noComment_head {i j q : Span} (hw : whitespace i = .ok (.done j q)) {e : NErr}
    (h : parseCommentFollowingWhitespace i = .ok (.err e)) : j.chars.items.head? ≠ some '#' := by
  unfold parseCommentFollowingWhitespace at h
  obtain ⟨a, h1, h2⟩ := Res.bind_eq_ok.mp h
  rw [hw] at h1
  cases h1
  obtain ⟨a, h3, h4⟩ := Res.bind_eq_ok.mp h2
  cases a with
  | err k => exact char_err h3
  | done r a => exact absurd h4 (NoErr.andThen (grabLine_noErr r) (fun r x => commentLoop_noErr _ _ _ _) e)

theorem commentLoop_sat (n : Nat) : ∀ (i line : Span) (reason : LineEnd), i.Norm →
    (i.length + 2 ≤ n ∨ (1 ≤ n ∧ reason ≠ .comment ∧ line.length = 0)) →
    (commentLoop n i line reason).SatP fun r _ => r.length ≤ i.length ∧ r.Norm := by
  induction n with
  | zero => intro i line reason _ h; omega
  | succ n ih =>
    intro i line reason hi hn
    have hb : (if reason = .comment then .ok 1 else endsWithBackslash line : Res Nat).Sat fun b =>
        reason ≠ .comment → line.length = 0 → b = 0 :=
      .ite (fun h => .ok fun h' => absurd h h') fun _ => (endsWithBackslash_sat line).imp fun _ h _ => h
    refine Sat.bind hb fun b _ hb => .ite (fun hodd => ?_) fun _ => SatP.done ⟨Nat.le_refl _, hi⟩
    have hn : i.length + 2 ≤ n + 1 := by
      rcases hn with h | ⟨_, h1, h2⟩
      · exact h
      · rw [hb h1 h2] at hodd; cases hodd
    have hc : (Res.orElse ((char '#' i).mapP fun _ => ()) (Res.done i ())).SatP fun r _ => r.Norm ∧
        (r.length < i.length ∨ (r = i ∧ i.chars.items.head? ≠ some '#')) := by
      refine SatP.orElse ((char_sat _ _).mapP fun r _ h => ⟨h.2, .inl h.1⟩) ?_
      rintro ⟨k, hk⟩
      refine SatP.done ⟨hi, .inr ⟨rfl, ?_⟩⟩
      obtain ⟨a, h1, h2⟩ := Res.bind_eq_ok.mp hk
      cases a with
      | err e => exact char_err h1
      | done r a => cases h2
    refine hc.andThen fun i1 _ _ hi1 => (grabLine_sat i1).andThen fun r x _ h => ?_
    obtain ⟨line', reason'⟩ := x
    obtain ⟨h1, h2, h3, h4, h5, h6⟩ := h
    have hle : i1.length ≤ i.length := by
      rcases hi1.2 with h | h
      · omega
      · rw [h.1]
    have next : r.length < i.length ∨ (r.length = 0 ∧ reason' ≠ .comment ∧ line'.length = 0) := by
      cases reason' with
      | comment =>
        left
        rcases hi1.2 with h | ⟨h, h'⟩
        · omega
        · subst h
          rcases Nat.lt_or_ge r.length i1.length with hh | hh
          · exact hh
          · exact absurd (h4 rfl (by omega)).2 h'
      | lineBreak => left; have := h5 rfl; omega
      | eof =>
        obtain ⟨e1, e2⟩ := h6 rfl
        have e2 : line' = i1 := e2
        rcases Nat.lt_or_ge r.length i.length with hh | hh
        · exact .inl hh
        · right
          refine ⟨e1, by simp, ?_⟩
          rw [e2]
          omega
    refine (ih r line' reason' h2 ?_).imp fun r' _ h => ⟨by omega, h.2⟩
    rcases next with h | ⟨h, h', h''⟩
    · left; omega
    · right; exact ⟨by omega, h', h''⟩

theorem parseComment_sat (i : Span) : (parseComment i).SatP fun r _ => r.length < i.length ∧ r.Norm :=
  (char_sat _ _).andThen fun i1 _ _ h1 => (grabLine_sat i1).andThen fun r x _ h =>
    (commentLoop_sat _ r x.1 x.2 h.2.1 (.inl (Nat.le_refl _))).imp fun _ _ h' => ⟨by omega, h'.2⟩

theorem commentLine_sat (i : Span) : (parseCommentFollowingWhitespace i).SatP fun r _ => r.length < i.length ∧ r.Norm :=
  (whitespace_sat i).andThen fun j _ _ hj => (parseComment_sat j).imp fun _ _ h => ⟨by omega, h.2⟩

/-- A line that is not a comment takes something away. -/
theorem makefileLine_lt {i : Span} (hi : i.Norm) (h0 : 0 < i.length) {k : NErr} (hc : parseCommentFollowingWhitespace i = .ok (.err k))
    (mode : Compliance) : (makefileLine i mode true).SatP fun r _ => r.length < i.length ∧ r.Norm := by
  have : (makefileLine i mode true).SatP fun r _ => r.length ≤ i.length - 1 ∧ r.Norm := by
    refine makefileLine_after (n := i.length - 1) ?_ mode true
    rw [if_pos rfl]
    refine (whitespace_sat i).andThen fun j q hw hj => (grabLine_sat j).imp fun r x h => ⟨?_, h.2.1⟩
    obtain ⟨h1, h2, h3, h4, h5, h6⟩ := h
    rcases Nat.lt_or_ge r.length i.length with hh | hh
    · omega
    have hjl : j.length = i.length := by omega
    cases hx : x.2 with
    | comment => exact absurd (h4 hx (by omega)).2 (noComment_head hw hc)
    | lineBreak => have := h5 hx; omega
    | eof => have := (h6 hx).1; omega
  exact this.imp fun r _ h => ⟨by omega, h.2⟩

/-! ### Quoted text and file names -/

theorem unquoteLoop_sat (i : Span) (stop : Char → Bool) (crash : Bool) (xs : List (Nat × Char)) : ∀ st : UnquoteState,
    (unquoteLoop i stop crash xs st).Sat fun x => xs = [] → x.2 = none := by
  induction xs with
  | nil => intro st; exact .ite (fun _ => .panic) fun _ => .ok fun _ => rfl
  | cons x xs ih =>
    intro st
    obtain ⟨idx, ch⟩ := x
    refine .ite (fun _ => (slice_sat _ _ _).bind fun _ _ _ => .ite (fun _ => (usub_sat _ _).bind fun _ _ _ =>
      (slice_sat _ _ _).bind fun _ _ _ => (pushAll_sat _ _).bind fun _ _ _ => ?_) fun _ => (slice_sat _ _ _).bind fun _ _ _ =>
      (pushAll_sat _ _).bind fun _ _ _ => .ok (by simp)) fun _ => ?_
    · exact (ih _).imp fun _ _ h => by cases h
    · exact (ih _).imp fun _ _ h => by cases h

/-- What `takeUntilUnquote` leaves is shorter than what it got. -/
theorem takeUntilUnquote_sat (i : Span) (stop : Char → Bool) : (takeUntilUnquote i stop).Sat fun x => ∀ sc post, x.2 = some (sc, post) →
    post.length ≤ i.length ∧ (0 < i.length → post.length < i.length) ∧ (i.length = 0 → stop (Char.ofNat 0) = true) := by
  refine (unquoteLoop_sat _ _ _ _ _).bind fun x _ hx => ?_
  obtain ⟨st, found⟩ := x
  have hf : (match (generalizing := false) found with
    | some idx => .ok (st, some idx)
    | none =>
      if stop (Char.ofNat 0) then do
        let idx := i.length
        let slashes := idx - st.nonslash
        let endIdx := idx - slashes / 2
        let piece ← i.slice st.nextPush endIdx
        let tr ← st.tr.pushAll piece
        if slashes % 2 = 1 then return ({ st with tr := tr, nextPush := idx }, none)
        else do
          let k ← usub idx 1
          return ({ st with tr := tr }, some k)
      else .ok (st, none) : Res (UnquoteState × Option Nat)).Sat fun x => ∀ k, x.2 = some k → i.length = 0 → stop (Char.ofNat 0) = true := by
    cases found with
    | some idx =>
      refine .ok fun k hk h0 => ?_
      have := hx (by rw [chars_zero h0]; rfl)
      cases this
    | none =>
      refine .ite (fun h => ?_) fun _ => .ok fun k hk => by cases hk
      exact ⟨((slice_sat _ _ _).bind (R := fun _ => True) fun _ _ _ => (pushAll_sat _ _).bind fun _ _ _ => .ite (fun _ => .ok trivial) fun _ =>
        (usub_sat _ _).bind fun _ _ _ => .ok trivial).1, fun _ _ _ _ _ => h⟩
  refine Sat.bind hf fun x _ hx => ?_
  obtain ⟨st, found⟩ := x
  cases found with
  | some idx =>
    have hs : (match st.stopChar with
      | some s => .ok s
      | none => i.sliceFrom i.length : Res Span).Sat fun _ => True := by
      cases st.stopChar with
      | some s => exact .ok trivial
      | none => exact (sliceFrom_sat _ _).imp fun _ _ => trivial
    refine Sat.bind hs fun _ _ _ => (simplify_sat _).bind fun _ _ _ => (sliceFrom_sat _ _).bind fun post _ hp => .ok ?_
    intro sc p e
    cases e
    refine ⟨by omega, fun h0 => ?_, hx idx rfl⟩
    have := hp.1
    split at this <;> omega
  | none =>
    refine .ite (fun _ => (toNewBlock_sat _).bind fun _ _ _ => .ok ?_) fun _ => (sliceFrom_sat _ _).bind fun _ _ _ => (pushAll_sat _ _).bind fun _ _ _ =>
      (simplify_sat _).bind fun _ _ _ => .ok ?_
    · intro sc p e; cases e
    · intro sc p e; cases e

theorem fileSeqLoop_sat (extra : Str) (n : Nat) : ∀ (i : Span) (out : List Block), i.length < n → (fileSeqLoop extra n i out).Sat fun _ => True := by
  induction n with
  | zero => intro i out h; omega
  | succ n ih =>
    intro i out hn
    refine .ite (fun h0 => (takeUntilUnquote_sat _ _).bind fun x _ hx => ?_) fun _ => .ok trivial
    obtain ⟨pre, o⟩ := x
    cases o with
    | some y =>
      obtain ⟨sc, post⟩ := y
      have := (hx sc post rfl).2.1 h0
      exact .ite (fun _ => (toNewBlock_sat _).bind fun _ _ _ => ih _ _ (by omega)) fun _ => ih _ _ (by omega)
    | none =>
      refine (sliceFrom_sat _ _).bind fun r _ hr => ?_
      exact .ite (fun _ => (toNewBlock_sat _).bind fun _ _ _ => ih _ _ (by omega)) fun _ => ih _ _ (by omega)

theorem parseFileSeq_sat (extra : Str) (i : Span) : (parseFileSeq extra i).Sat fun _ => True := by
  refine Sat.bind (whitespace_sat i) fun a _ _ => ?_
  cases a with
  | err e => exact .panic
  | done r q => exact fileSeqLoop_sat _ _ _ _ (by omega)

/-! ### Expressions -/

theorem functionArgument_sat (i : Span) : (functionArgument i).SatP fun r a => r.length ≤ i.length ∧ a.length ≤ i.length := by
  refine (many0_sat i).andThen fun j _ _ hj => ?_
  split
  · exact SatP.err
  · exact (takeSplit_sat _ _).bind fun x _ h => SatP.done ⟨by omega, by rw [h.2.2]; show _ ≤ _; simp only [Span.sliceTo]; omega⟩
  · exact .ite (fun _ => .panic) fun _ =>
      (takeSplit_sat _ _).bind fun x _ h => SatP.done ⟨by omega, by rw [h.2.2]; show _ ≤ _; simp only [Span.sliceTo]; omega⟩

section
variable {parse : AstParser}

/-- The parser ends on all texts of at most the given length. -/
def EndsTo (parse : AstParser) (n : Nat) : Prop := ∀ j : Span, j.length ≤ n → (parse j).SatP fun r _ => r.length ≤ j.length

theorem fnEval_sat {loc : Location} {i : Span} (h : EndsTo parse i.length) : (fnEval parse loc i).SatP fun r _ => r.length ≤ i.length :=
  (h i (Nat.le_refl _)).andThen fun _ _ _ h => SatP.done h

theorem fnStrip_sat {loc : Location} {i : Span} (h : EndsTo parse i.length) : (fnStrip parse loc i).SatP fun r _ => r.length ≤ i.length :=
  (functionArgument_sat i).andThen fun _ a _ ha => .ite (fun _ => SatP.err) fun _ => (h a ha.2).andThen fun _ _ _ _ => SatP.done ha.1

theorem fnWords_sat {loc : Location} {i : Span} (h : EndsTo parse i.length) : (fnWords parse loc i).SatP fun r _ => r.length ≤ i.length :=
  (functionArgument_sat i).andThen fun _ a _ ha => .ite (fun _ => SatP.err) fun _ => (h a ha.2).andThen fun _ _ _ _ => SatP.done ha.1

theorem fnWord_sat {loc : Location} {i : Span} (h : EndsTo parse i.length) : (fnWord parse loc i).SatP fun r _ => r.length ≤ i.length := by
  refine (functionArgument_sat i).andThen fun j a _ ha => Sat.bind (char_sat _ _) fun x _ hx => ?_
  cases x with
  | err e => exact SatP.err
  | done k _ =>
    have hx : k.length < j.length ∧ k.Norm := hx
    exact (h a ha.2).andThen fun _ _ _ _ => (functionArgument_sat k).andThen fun _ b _ hb => .ite (fun _ => SatP.err) fun _ =>
      (h b (by omega)).andThen fun _ _ _ _ => SatP.done (by omega)

theorem whitespace_le (i : Span) : (whitespace i).SatP fun r _ => r.length ≤ i.length := (whitespace_sat i).imp fun _ _ h => h.1

theorem funcEntry_sat {name : Str} {f : Span → PRes Ast} {i : Span} (h : ∀ j : Span, j.length ≤ i.length → (f j).SatP fun r _ => r.length ≤ j.length) :
    (funcEntry name f i).SatP fun r _ => r.length ≤ i.length :=
  (tag_sat _ _).andThen fun _ _ _ h1 => (many1_sat whitespace_le _).andThen fun k _ _ h2 => (h k (by omega)).imp fun _ _ h => by omega

theorem functionCall_sat {loc : Location} {i : Span} (h : EndsTo parse i.length) : (functionCall parse loc i).SatP fun r _ => r.length ≤ i.length :=
  SatP.orElse (funcEntry_sat fun j hj => fnEval_sat fun k hk => h k (by omega)) fun _ =>
  SatP.orElse (funcEntry_sat fun j hj => fnStrip_sat fun k hk => h k (by omega)) fun _ =>
  SatP.orElse (funcEntry_sat fun j hj => fnWords_sat fun k hk => h k (by omega)) fun _ =>
  SatP.orElse (funcEntry_sat fun j hj => fnWord_sat fun k hk => h k (by omega)) fun _ => SatP.err

theorem advancedVar_sat {loc : Location} {o c : Char} {i : Span} (h : EndsTo parse i.length) :
    (advancedVar parse loc o c i).SatP fun r _ => r.length ≤ i.length := by
  unfold advancedVar
  split
  · exact .ite (fun _ => .panic) fun _ => SatP.err
  · refine (takeSplit_sat _ _).bind fun x _ hx => (usub_sat _ _).bind fun n _ hn => ?_
    obtain ⟨r, name⟩ := x
    obtain ⟨h1, h2, h3⟩ := hx
    simp only at h1 h2 h3 hn ⊢
    have hl : (name.sliceTo n).length ≤ i.length := by
      subst h3
      simp only [Span.sliceTo] at hn ⊢
      omega
    refine Sat.bind (functionCall_sat (i := name.sliceTo n) fun k hk => h k (by omega)) fun a _ ha => ?_
    cases a with
    | done r' a => exact Sat.ok (show r'.length ≤ i.length from Nat.le_trans ha hl)
    | err e => cases e with
      | error k => exact SatP.err
      | failure k =>
        exact .ite (fun _ => (h _ hl).andThen fun _ _ _ _ => SatP.done (by omega)) fun _ => SatP.err

theorem firstConstant_sat (l : Span) : (firstConstant l).Sat fun _ => True :=
  (firstSegment_sat _).bind fun _ _ _ => (runwrap_sat _).bind fun _ _ _ => .ok trivial

theorem parseVarRef_sat {loc : Location} {i : Span} (h : EndsTo parse i.length) : (parseVarRef parse loc i).SatP fun r _ => r.length ≤ i.length := by
  refine SatP.orElse ((eof_sat i).mapP fun r _ h => by rw [h]) fun _ => SatP.orElse ?_ fun _ => SatP.orElse ?_ fun _ => SatP.orElse ?_ fun _ => ?_
  · exact (tag_sat _ _).andThen fun _ _ _ h => Sat.bind (firstConstant_sat _) fun _ _ _ => SatP.done (by omega)
  · exact (char_sat _ _).andThen fun j _ _ hj => (advancedVar_sat fun k hk => h k (by omega)).imp fun _ _ h => by omega
  · exact (char_sat _ _).andThen fun j _ _ hj => (advancedVar_sat fun k hk => h k (by omega)).imp fun _ _ h => by omega
  · exact (take_sat _ _).andThen fun _ _ _ h => Sat.bind (firstConstant_sat _) fun _ _ _ => SatP.done (by omega)

theorem parseAstLoop_sat {L : Nat} (h : ∀ j : Span, j.length < L → (parse j).SatP fun r _ => r.length ≤ j.length) (n : Nat) :
    ∀ (i : Span) (acc : List Ast), i.length < n → i.length ≤ L → (parseAstLoop parse n i acc).SatP fun r _ => r.length ≤ i.length := by
  induction n with
  | zero => intro i acc hn; omega
  | succ n ih =>
    intro i acc hn hL
    refine .ite (fun h0 => ?_) fun _ => SatP.done (Nat.le_refl _)
    have hsplit : (Res.orElse ((takeUntil ['$'] i).andThen fun r start =>
          (tag ['$'] r).andThen fun r dollar => do
            let loc ← dollar.location
            let loc ← runwrap loc
            Res.done r (start, some loc))
        ((rest i).mapP fun l => (l, none))).SatP fun r (x : Span × Option Location) => r.length ≤ i.length ∧ (x.2.isSome → r.length < i.length) := by
      refine SatP.orElse ((takeUntil_sat _ _).andThen fun r _ _ h1 => (tag_sat _ _).andThen fun r' _ _ h2 => (location_sat _).bind fun _ _ _ =>
        (runwrap_sat _).bind fun _ _ _ => SatP.done ?_) fun _ => (rest_sat _).mapP fun r _ h => ⟨by omega, by simp⟩
      have : blen ['$'] = 1 := rfl
      exact ⟨by omega, fun _ => by omega⟩
    refine hsplit.andThen fun r x _ hx => ?_
    obtain ⟨u, dollar⟩ := x
    refine (allSegments_sat _).bind fun segs _ _ => ?_
    cases dollar with
    | none => exact SatP.done hx.1
    | some loc =>
      have hlt : r.length < i.length := hx.2 rfl
      exact (parseVarRef_sat fun k hk => h k (by omega)).andThen fun r' _ _ hr => (ih r' _ (by omega) (by omega)).imp fun _ _ h => by omega

end

theorem parseAstF_sat (n : Nat) : ∀ i : Span, i.length < n → (parseAstF n i).SatP fun r _ => r.length ≤ i.length := by
  induction n with
  | zero => intro i h; omega
  | succ n ih =>
    intro i hn
    refine (location_sat i).bind fun o _ _ => ?_
    cases o with
    | none => exact SatP.done (Nat.le_refl _)
    | some start => exact (parseAstLoop_sat ih _ i _ (by omega) (by omega)).mapP fun _ _ h => h

theorem parseAst_sat (i : Span) : (parseAst i).SatP fun r _ => r.length ≤ i.length := parseAstF_sat _ _ (by omega)

/-- The expression of an empty text is the empty one. -/
theorem parseAst_zero {i : Span} (h : i.length = 0) : (parseAst i).SatP fun _ a => a = Ast.mkEmpty := by
  unfold parseAst
  refine (location_sat i).bind fun o _ ho => ?_
  rw [ho h]
  exact SatP.done rfl

/-! ### Recipes -/

theorem grabCommandLine_sat (c : Char) (i : Span) : (grabCommandLine c i).SatP fun r _ => r.length < i.length ∧ r.Norm :=
  (char_sat _ _).andThen fun j _ _ hj => (grabLine_sat j).imp fun _ _ h => ⟨by omega, h.2.1⟩

theorem recipeLoop_sat (c : Char) (n : Nat) : ∀ (i : Span) (line : Block), i.Norm → i.length < n →
    (recipeLoop c n i line).SatP fun r _ => r.length ≤ i.length ∧ r.Norm := by
  induction n with
  | zero => intro i line _ h; omega
  | succ n ih =>
    intro i line hi hn
    have hend : ∀ (l : Span) (r : Span), r.length ≤ i.length → r.Norm →
        ((parseAst l).andThen fun _ ast => Res.done r ast).SatP fun r _ => r.length ≤ i.length ∧ r.Norm :=
      fun l r h1 h2 => (parseAst_sat l).andThen fun _ _ _ _ => SatP.done ⟨h1, h2⟩
    refine (endsWithBackslash_sat _).bind fun b _ _ => .ite (fun _ => Sat.bind (grabCommandLine_sat c i) fun a _ ha => ?_) fun _ =>
      hend _ _ (Nat.le_refl _) hi
    cases a with
    | err e => exact hend _ _ (Nat.le_refl _) hi
    | done r x =>
      obtain ⟨next, reason⟩ := x
      have ha : r.length < i.length ∧ r.Norm := ha
      refine (toContentReference_sat _).bind fun _ _ _ => .ite (fun _ => hend _ _ (by omega) ha.2) fun _ => ?_
      exact (ih r _ ha.2 (by omega)).imp fun _ _ h => ⟨by omega, h.2⟩

theorem recipeLine_sat (c : Char) (i : Span) : (recipeLine c i).SatP fun r _ => r.length < i.length ∧ r.Norm := by
  refine (grabCommandLine_sat c i).andThen fun r x _ h => ?_
  obtain ⟨line, reason⟩ := x
  refine .ite (fun _ => (parseAst_sat _).andThen fun _ _ _ _ => SatP.done h) fun _ => (toNewBlock_sat _).bind fun _ _ _ => ?_
  exact (recipeLoop_sat _ _ r _ h.2 (by omega)).imp fun _ _ h' => ⟨by omega, h'.2⟩

/-! ### Conditionals -/

theorem condKeyword_sat (i : Span) : (condKeyword i).SatP fun r _ => r.length < i.length := by
  refine (whitespace_sat i).andThen fun j _ _ hj => ?_
  have hk : ∀ (w : Str) (t : CondType), blen w ≠ 0 → ((tagNoCase w j).mapP fun _ => t).SatP fun r _ => r.length < j.length :=
    fun w t h => (tagNoCase_sat _ _).mapP fun _ _ h' => by omega
  refine SatP.andThen (Q := fun r _ => r.length < j.length) ?_ fun k _ _ hk => (whitespace_sat k).andThen fun _ _ _ h => SatP.done (by omega)
  exact SatP.orElse (hk _ _ (by decide)) fun _ => SatP.orElse (hk _ _ (by decide)) fun _ => SatP.orElse (hk _ _ (by decide)) fun _ =>
    SatP.orElse (hk _ _ (by decide)) fun _ => SatP.orElse (hk _ _ (by decide)) fun _ => hk _ _ (by decide)

theorem takeTillTerminator_sat (c : Char) (line : Span) : (takeTillTerminator c line).SatP fun _ _ => True := by
  refine .ite (fun _ => ?_) fun _ => (takeTill_sat _ _).andThen fun _ _ _ _ => (char_sat _ _).andThen fun _ _ _ _ => SatP.done trivial
  split
  · exact (sliceFrom_sat _ _).bind fun _ _ _ => (char_sat _ _).andThen fun _ _ _ _ => SatP.done trivial
  · exact .ite (fun _ => .panic) fun _ => SatP.err

theorem parseIfeq_sat (line : Span) : (parseIfeq line).SatP fun _ _ => True := by
  have hk : ∀ (c d : Char) (i : Span), ((char c i).mapP fun _ => d).SatP fun _ _ => True := fun c d i => (char_sat _ _).mapP fun _ _ _ => trivial
  refine SatP.andThen (SatP.orElse (hk _ _ _) fun _ => SatP.orElse (hk _ _ _) fun _ => hk _ _ _) fun _ _ _ _ =>
    (takeTillTerminator_sat _ _).andThen fun _ _ _ _ => (parseAst_sat _).andThen fun _ _ _ _ => (whitespace_sat _).andThen fun _ _ _ _ =>
    SatP.andThen (.ite (fun _ => SatP.done trivial) fun _ => SatP.orElse (hk _ _ _) fun _ => hk _ _ _) fun _ _ _ _ =>
    (takeTillTerminator_sat _ _).andThen fun _ _ _ _ => (parseAst_sat _).andThen fun _ _ _ _ => SatP.done trivial

theorem parseCondF_sat (n : Nat) : ∀ i : Span, i.length < n → (parseCondF n i).SatP fun _ _ => True := by
  induction n with
  | zero => intro i h; omega
  | succ n ih =>
    intro i hn
    refine (condKeyword_sat i).andThen fun j t _ hj => ?_
    cases t with
    | ifDef => exact SatP.mapP (SatP.returnError (parseAst_sat j)) fun _ _ _ => trivial
    | ifNDef => exact SatP.mapP (SatP.returnError (parseAst_sat j)) fun _ _ _ => trivial
    | ifEq => exact (parseIfeq_sat j).mapP fun _ _ _ => trivial
    | ifNEq => exact (parseIfeq_sat j).mapP fun _ _ _ => trivial
    | else_ =>
      refine (whitespace_sat j).andThen fun k _ _ hk => .ite (fun _ => ?_) fun _ => SatP.done trivial
      refine SatP.andThen (SatP.returnError (ih k (by omega))) fun _ c _ _ => ?_
      cases c <;> first | exact SatP.err | exact SatP.done trivial
    | endIf => exact .ite (fun _ => SatP.err) fun _ => SatP.done trivial

theorem parseConditionalLine_sat (i : Span) : (parseConditionalLine i).SatP fun _ _ => True := parseCondF_sat _ _ (by omega)

end Hastur
